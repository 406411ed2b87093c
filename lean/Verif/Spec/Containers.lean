/-!
# Specifications of the containers, independent of the model

* a *list of sets with a current one* for `Vec2d`;
* a *bag with removal of a maximum* for the completion queue.
-/

namespace Gearley.Spec

/-! ### A growing list of sets -/

/-- Closed sets, oldest first, and the set under construction. -/
structure Sets (α : Type) where
  closed : List (List α)
  current : List α
  deriving DecidableEq, Repr

/-- State-changing operations on a list of sets. -/
inductive SetsOp (α : Type) where
  /-- forget everything -/
  | clear
  /-- add one element to the current set -/
  | push (x : α)
  /-- remove the most recently added element of the current set -/
  | pop
  /-- close the current set and start an empty one -/
  | next
  /-- add many elements to the current set and close it -/
  | extendWithSet (s : List α)
  /-- keep only the first `n` closed sets; the current one survives -/
  | truncate (n : Nat)
  /-- keep only the first `n` elements of the current set -/
  | truncateCurrent (n : Nat)
  deriving DecidableEq, Repr

variable {α : Type}

/-- One operation; `none` when the operation is outside its contract (popping from an empty current set,
keeping more sets than there are). -/
def Sets.step (s : Sets α) : SetsOp α → Option (Sets α)
  | .clear => some ⟨[], []⟩
  | .push x => some ⟨s.closed, s.current ++ [x]⟩
  | .pop => if s.current = [] then none else some ⟨s.closed, s.current.dropLast⟩
  | .next => some ⟨s.closed ++ [s.current], []⟩
  | .extendWithSet t => some ⟨s.closed ++ [s.current ++ t], []⟩
  | .truncate n => if n ≤ s.closed.length then some ⟨s.closed.take n, s.current⟩ else none
  | .truncateCurrent n => some ⟨s.closed, s.current.take n⟩

/-- A sequence of operations. -/
def Sets.steps (s : Sets α) : List (SetsOp α) → Option (Sets α)
  | [] => some s
  | o :: os => match s.step o with
    | none => none
    | some t => t.steps os

/-! ### A priority queue -/

inductive QueueOp (β : Type) where
  | push (x : β)
  | pop
  deriving DecidableEq, Repr

/-- `QueueRun le q ops outs q'`: starting from the bag `q`, the operations `ops` may yield the outputs `outs` (one
for every `pop`) and leave the bag `q'`. A `pop` yields some maximal element, or nothing when the bag is empty. -/
inductive QueueRun {β : Type} (le : β → β → Prop) : List β → List (QueueOp β) → List (Option β) → List β → Prop
  | done {q q'} : q.Perm q' → QueueRun le q [] [] q'
  | push {q x ops outs q'} : QueueRun le (x :: q) ops outs q' → QueueRun le q (.push x :: ops) outs q'
  | popEmpty {ops outs q'} : QueueRun le [] ops outs q' → QueueRun le [] (.pop :: ops) (none :: outs) q'
  | pop {q m r ops outs q'} : q.Perm (m :: r) → (∀ x ∈ q, le x m) → QueueRun le r ops outs q' →
      QueueRun le q (.pop :: ops) (some m :: outs) q'

end Gearley.Spec
