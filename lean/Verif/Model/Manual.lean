import Verif.Model.Session

/-!
# Completion by hand

The client code that `next_sum` and `CompleteGroup` (recognizer.rs:656-735) are meant for. `Env`, `Rec` and the single
operations are those of `Model/Recognizer.lean`; only the loops around them are the client's.
-/

namespace Gearley.Rec
variable {σ ν : Type} (E : Env σ ν)

/-- One group by hand, on `group = next_sum()`:
`while let Some(item) = group.next_summand() { group.push_summand(item); } group.complete_sum();`
The client cannot call `begin_sum`: the field `forest` is `pub(crate)` (recognizer.rs:26) and `CompleteGroup` has no such
method. -/
def manualSum (s : Rec σ ν) (origin lhs : Nat) : M (Rec σ ν) := do
  let s ← summandLoop E origin lhs s.complete.length s
  let (s, _) ← completeSum E s origin lhs
  pure s

/-- One round of the client's loop `while let Some(group) = recognizer.next_sum()`. For every group the client may also
call `complete_entire_sum`; `entire` says when it does. -/
def manualStep (entire : Rec σ ν → Bool) (s : Rec σ ν) : M (Rec σ ν ⊕ Rec σ ν) := do
  match ← nextSum E s with
  | some (origin, lhs) => do
    let s' ← (if entire s then completeEntireSum E s origin lhs else manualSum E s origin lhs : M (Rec σ ν))
    pure (.inl s')
  | none => pure (.inr s)

/-- The client's completion pass. -/
def manualAll (entire : Rec σ ν → Bool) (s : Rec σ ν) : M (Rec σ ν) := loop (manualStep E entire) s

/-- `manualAll` with a bound on the number of groups, for computing concrete runs. -/
def manualAllFuel (entire : Rec σ ν → Bool) (n : Nat) (s : Rec σ ν) : M (Rec σ ν) := loopFuel (manualStep E entire) n s

/-- What the client does instead of `end_earleme`: `if !r.is_exhausted() { <completion pass>; r.advance_after_completion() }`. -/
def manualEarleme (entire : Rec σ ν → Bool) (s : Rec σ ν) : M (Rec σ ν × Bool) :=
  endEarlemeWith E (manualAll E entire) s

/-- A session with completion by hand. -/
def manualSession (entire : Rec σ ν → Bool) (steps : List (HintOp × List (Nat × Nat))) (s : Rec σ ν) :
    M (Rec σ ν × Bool) :=
  sessionWith E (manualAll E entire) steps s

end Gearley.Rec
