import Verif.Model.Session
import Verif.Spec.Grammar

/-! # Specification: what a session reads -/

namespace Gearley
open Gearley.Spec

/-- A session step: the hint operation and the tokens (symbol, value) scanned. -/
abbrev Step := Rec.HintOp × List (Nat × Nat)

/-- The input read by a session. -/
def inputOf (steps : List Step) : Input := fun i => match steps[i]? with
  | some st => st.2
  | none => []

/-- Hints describe the next token; after the last token only the end marker may be announced. -/
def Honest (T : Nat → Prop) (eof : Nat) (steps : List Step) : Prop :=
  ∀ (i : Nat) (st : Step) (x : Nat), steps[i]? = some st → st.1 = .set x →
    T x ∧ (∀ st', steps[i + 1]? = some st' → ∀ t ∈ st'.2, t.1 = x) ∧ (i + 1 = steps.length → x = eof)

/-- No step sets a hint. -/
def NoHints (steps : List Step) : Prop := ∀ st ∈ steps, ∀ x, st.1 ≠ .set x

/-- The input is accepted: one token per position can be picked to give a string derived from `g0`. -/
def Accepts (R : Rules) (g0 : Nat) (steps : List Step) : Prop :=
  ∃ w, w.length = steps.length ∧ Picks (inputOf steps) 0 w ∧ Derives R g0 w

/-- The input read so far is a prefix of a sentential form. -/
def Viable (R : Rules) (start : Nat) (steps : List Step) : Prop :=
  ∃ w v, w.length = steps.length ∧ Picks (inputOf steps) 0 w ∧ Derives R start (w ++ v)

end Gearley
