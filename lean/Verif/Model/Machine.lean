import Verif.Model.Api
import Verif.Model.Drivers

/-!
# Positions in 32 bits

`Item::origin` is a `u32` (gearley-forest/src/item.rs:4), and `scan` converts the number of the current set to it
(recognizer.rs:147). `Model/Recognizer.lean` leaves this conversion out. Here is `scan` with the conversion, and the clients of
`scan` once more on top of it. No other function of the recognizer converts a position to 32 bits: all origins come from `scan` or
are copied from other items. The arithmetic is that of a debug build (overflow panics).
-/

namespace Gearley

/-- `a + 1` on `u32` in a debug build. -/
def succU32 (a : Nat) : M Nat := if a + 1 < 2 ^ 32 then pure (a + 1) else panicM .overflow

namespace Rec
variable {σ ν : Type} (E : Env σ ν)

/-- `scan` (recognizer.rs:144-158) with `self.earleme() as Origin` and `earleme + 1` on `u32`. -/
def scan32 (s : Rec σ ν) (symbol value : Nat) : M (Rec σ ν) := do
  assertM (s.earleme != maxUsize)
  let earleme := s.earleme % 2 ^ 32
  let pos ← succU32 earleme
  let (forest, node) ← E.F.leaf s.forest symbol pos value
  completeSym E { s with forest := forest } earleme symbol node

/-- One call of the public interface, as `callWith`, with `scan32`. -/
def call32 (ca : Rec σ ν → M (Rec σ ν)) (s : Rec σ ν) : Call → M (Rec σ ν × Obs)
  | .scan sym value => do
    let s ← scan32 E s sym value
    pure (s, .unit)
  | c => callWith E ca s c

/-- A sequence of calls, as `callsWith`, with `scan32`. -/
def calls32 (ca : Rec σ ν → M (Rec σ ν)) : List Call → Rec σ ν → M (Rec σ ν × List Obs)
  | [], s => pure (s, [])
  | c :: rest, s => do
    let (s, o) ← call32 E ca s c
    let (s, os) ← calls32 ca rest s
    pure (s, o :: os)

/-- One position, as `position`, with `scan32`. -/
def position32 (s : Rec σ ν) (toks : List (Nat × Nat)) : M (Rec σ ν × Bool) := do
  let s ← toks.foldlM (fun s t => scan32 E s t.1 t.2) s.beginEarleme
  endEarleme E s

/-- A session, as `session`, with `scan32`. -/
def session32 : List (HintOp × List (Nat × Nat)) → Rec σ ν → M (Rec σ ν × Bool)
  | [], s => pure (s, true)
  | (h, toks) :: rest, s => do
    let (s, ok) ← position32 E (applyHint s h) toks
    if ok then session32 rest s else pure (s, false)

/-- The loop of `parse` (parse.rs:77-97), as `parseLoop`, with `scan32`. -/
def parseLoop32 (ca : Rec σ ν → M (Rec σ ν)) : Nat → List Nat → Rec σ ν → M (Rec σ ν × Except ParseError Bool)
  | _, [], s => do
    let b ← isFinished E s
    pure (s, .ok b)
  | i, token :: rest, s => do
    let s := s.beginEarleme
    let s ← (match rest with
      | t :: _ => do
        let h ← internal E t
        pure (s.setHint h)
      | [] => pure s.clearHint)
    let x ← internal E token
    let s ← scan32 E s x (i % 2 ^ 32)
    let (s, ok) ← endEarlemeWith E ca s
    if ok then parseLoop32 ca (i + 1) rest s else pure (s, .error (.parse [token] i))

/-- `parse` (parse.rs:67-105), as `parseWith`, with `scan32`. -/
def parse32 (ca : Rec σ ν → M (Rec σ ν)) (s : Rec σ ν) (tokens : List Nat) : M (Rec σ ν × Except ParseError Bool) := do
  let s ← scan32 E s.beginEarleme E.g.sofSym 0
  let (s, ok) ← endEarlemeWith E ca s
  if ok then parseLoop32 E ca 0 tokens s else pure (s, .error (.parse [E.g.sofSym] 0))

end Rec
end Gearley
