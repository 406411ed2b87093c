import Verif.Props.Independence
import Verif.Proofs.Logging

/-!
# C60: logging changes nothing

`Model/Logging.lean` is the recognizer with feature `log` on, at level `trace`.
-/

namespace Gearley.Props
open Gearley.Spec
variable {σ ν : Type}

/-- C60. For every grammar, forest and session, on a new recognizer: what the recognizer does, panics and divergence included, is
the same with logging and without. -/
theorem C60_session (E : Env σ ν) (f : σ) (steps : List Step) :
    (Rec.new E f >>= Rec.sessionLogged E steps) = (Rec.new E f >>= Rec.session E steps) :=
  bind_congr_pure fun s hs => Rec.sessionLogged_eq steps s (Rec.new_fits hs)

/-- C60 for `parse`. -/
theorem C60_parse (E : Env σ ν) (f : σ) (tokens : List Nat) :
    (Rec.new E f >>= fun s => Rec.parseLogged E s tokens) = (Rec.new E f >>= fun s => Rec.parse E s tokens) :=
  bind_congr_pure fun _ hs => Rec.parseLogged_eq (Rec.new_fits hs)

/-- C60 for `parse_terminal_list`. -/
theorem C60_terminal_list (E : Env σ ν) (f : σ) (nameMap : List Char → Option Nat) (words : List (List Char)) :
    Rec.parseTerminalListLogged E f nameMap words = Rec.parseTerminalList E f nameMap words := by
  rw [Rec.parseTerminalListLogged_eq]

/-- C60 for `parse_tokenizing`. -/
theorem C60_tokenizing (E : Env σ ν) (f : σ) (lexer : Nat → List Nat) (input : List Nat) :
    Rec.parseTokenizingLogged E f lexer input = Rec.parseTokenizing E f lexer input := by
  rw [Rec.parseTokenizingLogged_eq]

/-- C60 for `from_grammar`: whatever crate `cfg` returns. -/
theorem C60_from_grammar (X : CfgCrate) (c nulling : Cfg) : Build.fromBinarizedLogged X c nulling = Build.fromBinarized X c nulling := by
  unfold Build.fromBinarizedLogged Build.fromBinarized
  refine bind_congr_pure fun p _ => ?_
  obtain ⟨c', maps⟩ := p
  simp only [Build.traceTablesLogged_eq]

/-- C60 for calls in any order, with the condition that `begin_earleme` is called only if the position before was ended with
success or thrown away with `reset`. -/
theorem C60_calls (E : Env σ ν) (f : σ) {cs : List Call}
    (h : ∀ pre more, cs = pre ++ .beginEarleme :: more → ∀ s os, (Rec.new E f >>= Rec.calls E pre) = pure (s, os) →
      pendingFrom false (pre.zip os) = false) :
    (Rec.new E f >>= Rec.callsLogged E cs) = (Rec.new E f >>= Rec.calls E cs) := by
  refine bind_congr_pure fun s hs => ?_
  refine Rec.callsLogged_eq cs s false (Rec.new_fits hs) fun pre more hp s' os h1 => ?_
  exact h pre more hp s' os (by rw [hs, pure_bind]; exact h1)

/-- The same for one run, where the condition is read off the results. -/
theorem C60_run (E : Env σ ν) (f : σ) {cs : List Call} {s : Rec σ ν} {os : List Obs}
    (h : (Rec.new E f >>= Rec.calls E cs) = pure (s, os)) (hp : pairedFrom false (cs.zip os) = true) :
    (Rec.new E f >>= Rec.callsLogged E cs) = pure (s, os) := by
  obtain ⟨s0, h0, h⟩ := bind_eq_pure h
  rw [h0, pure_bind]
  exact Rec.callsLogged_paired cs s0 false s os (Rec.new_fits h0) h hp

/-- The condition cannot be dropped. A client that goes on after `end_earleme` returned `false` is served without logging, position
after position. With logging `begin_earleme` panics at the ninth position, for every grammar. -/
theorem C60_sharp (E : Env σ ν) (f : σ) {s : Rec σ ν} (hs : Rec.new E f = pure s) (k : Nat) :
    (∃ r, (Rec.new E f >>= Rec.calls E (Rec.failing k)) = pure r) ∧
    (8 < k → (Rec.new E f >>= Rec.callsLogged E (Rec.failing k)) = panicM .index) ∧
    (k ≤ 8 → (Rec.new E f >>= Rec.callsLogged E (Rec.failing k)) = (Rec.new E f >>= Rec.calls E (Rec.failing k))) := by
  have hc : s.complete = [] := by
    unfold Rec.new at hs
    obtain ⟨_, _, hs⟩ := bind_eq_pure hs
    cases pure_inj_M hs
    rfl
  have hl := Rec.new_len hs
  have hr := Rec.new_rows hs
  rw [hs, pure_bind, pure_bind]
  refine ⟨Rec.calls_failing k s hc, fun hk => ?_, fun hk => ?_⟩
  · exact Rec.callsLogged_failing k s hc (by omega) (by omega) (by omega)
  · exact Rec.callsLogged_failing_eq k s hc (by omega) (by omega)

section
open Gearley.Example

-- the condition of C60_run holds for two positions with queries in between
example : ∃ s, (Rec.new env () >>= Rec.callsLogged env exampleCalls) = pure (s, exampleObs) := by
  obtain ⟨s, h⟩ := observations_real (E := env) (f := ()) (cs := exampleCalls) (o := exampleObs) (by decide +kernel)
  exact ⟨s, C60_run env () h (by decide +kernel)⟩

-- the computations for the log do take place: without rows, `begin_earleme` with logging panics
example : Rec.beginEarlemeLogged ({ (⟨(), none, BitMatrix.new 0 7, Vec2d.new, []⟩ : Rec Unit Unit) with }) = panicM .index := by
  decide +kernel

-- a new recognizer exists, as C60_sharp assumes
example : ∃ s, Rec.new env () = pure s := ⟨_, rfl⟩

end

end Gearley.Props
