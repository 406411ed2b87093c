import Verif.Proofs.Width
import Verif.Props.Machine

/-!
# C51: `usize` of 32 bits

The model of the recognizer has a `usize` of 64 bits; `Model/Width.lean` has one of `W` bits. The target wasm32 has 32.
-/

namespace Gearley.Props
variable {σ ν : Type} {W : Nat}

/-- C51 for targets with a `usize` of 32 to 64 bits. For every grammar and forest, and all sequences of less than `2 ^ 32 - 8` calls of
the public interface, in any order: the recognizer does what it does with 64 bits. It panics where it does with 64 bits, and all
results are the same, but for `earleme` before the first position: this is `!0` in `W` bits, that is the number of 64 bits cut down. -/
theorem C51_usize (E : Env σ ν) (f : σ) (hW : 32 ≤ W) (hW' : W ≤ 64) {cs : List Call} (h : cs.length + 8 ≤ 2 ^ 32) :
    (Rec.new E f >>= Rec.callsOf W E (Rec.completeAll E) cs) =
      (Rec.new E f >>= Rec.calls E cs) >>= fun p => pure (p.1, p.2.map (Obs.narrow W)) := by
  rw [bind_assoc]
  refine bind_congr_pure fun s hs => ?_
  have := Rec.new_len hs
  have := Rec.new_rows hs
  exact Rec.callsOf_eq hW hW' cs s (Rec.new_begun hs) (by omega) (by omega)

/-- C51 for `parse` on such a target. -/
theorem C51_usize_parse (E : Env σ ν) (f : σ) (hW : 32 ≤ W) {tokens : List Nat} (h : tokens.length + 2 ≤ 2 ^ 32) :
    (Rec.new E f >>= fun s => Rec.parseOf W E (Rec.completeAll E) s tokens) = (Rec.new E f >>= fun s => Rec.parse E s tokens) := by
  refine bind_congr_pure fun s hs => ?_
  have := Rec.new_len hs
  exact Rec.parseOf_eq hW (Rec.new_begun hs) (by omega)

/-- C51 for `parse_terminal_list` on such a target. -/
theorem C51_usize_terminal_list (E : Env σ ν) (f : σ) (hW : 32 ≤ W) (nameMap : List Char → Option Nat) {words : List (List Char)}
    (h : words.length + 2 ≤ 2 ^ 32) :
    Rec.parseTerminalListOf W E (Rec.completeAll E) f nameMap words = Rec.parseTerminalList E f nameMap words :=
  Rec.parseTerminalListOf_eq hW h

/-- C51 for `parse_tokenizing` on such a target, which the page in the browser calls. -/
theorem C51_usize_tokenizing (E : Env σ ν) (f : σ) (hW : 32 ≤ W) (lexer : Nat → List Nat) {input : List Nat}
    (h : input.length + 2 ≤ 2 ^ 32) :
    Rec.parseTokenizingOf W E (Rec.completeAll E) f lexer input = Rec.parseTokenizing E f lexer input :=
  Rec.parseTokenizingOf_eq hW h

section
open Gearley.Example

-- `earleme` before the first position differs, and is what the cut leaves; the rest is the same
example : (Rec.new { g := Right.grammar, F := nullForest, sorter := sorter } () >>=
      Rec.callsOf 32 { g := Right.grammar, F := nullForest, sorter := sorter } (fun s => pure s)
        [.earleme, .beginEarleme, .earleme]).run.map (fun r => r.toOption.map (·.2)) =
    some (some [.num (2 ^ 32 - 1), .unit, .num 0]) := by
  decide +kernel

-- a narrower `usize` does differ: with 0 bits, `scan` takes position 0 for none
example : (Rec.new { g := Right.grammar, F := nullForest, sorter := sorter } () >>=
      Rec.callsOf 0 { g := Right.grammar, F := nullForest, sorter := sorter } (fun s => pure s)
        [.beginEarleme, .scan Right.grammar.sofSym 0]).run.map (fun r => r.toOption.isSome) ≠
    (Rec.new { g := Right.grammar, F := nullForest, sorter := sorter } () >>=
      Rec.callsOf 32 { g := Right.grammar, F := nullForest, sorter := sorter } (fun s => pure s)
        [.beginEarleme, .scan Right.grammar.sofSym 0]).run.map (fun r => r.toOption.isSome) := by
  decide +kernel

end
end Gearley.Props
