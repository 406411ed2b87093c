/-!
# Sorting (std)

`sort_by_key` is stable, which determines its result: it is modelled by insertion. `sort_unstable_by_key` promises only
some sorted permutation; it is modelled by an arbitrary `Sorter`. The only assumption beyond that promise is that the
chosen permutation is determined by the keys (the algorithm only compares keys).
-/

namespace Gearley

/-- Insert before the first element whose key is not smaller. -/
def insertByKey {α} (k : α → Nat) (x : α) : List α → List α
  | [] => [x]
  | y :: l => if k x ≤ k y then x :: y :: l else y :: insertByKey k x l

/-- `<[T]>::sort_by_key`: stable sort. -/
def sortByKey {α} (k : α → Nat) : List α → List α
  | [] => []
  | x :: l => insertByKey k x (sortByKey k l)

/-- Sort keys of medial items: (next symbol, dot, origin). -/
abbrev Key := Nat × Nat × Nat

/-- Lexicographic order of keys. -/
def Key.le (a b : Key) : Bool :=
  decide (a.1 < b.1 ∨ (a.1 = b.1 ∧ (a.2.1 < b.2.1 ∨ (a.2.1 = b.2.1 ∧ a.2.2 ≤ b.2.2))))

/-- Contract of `<[T]>::sort_unstable_by_key`. -/
structure Sorter where
  sort : ∀ {α : Type}, (α → Key) → List α → List α
  perm : ∀ {α : Type} (k : α → Key) (l : List α), (sort k l).Perm l
  sorted : ∀ {α : Type} (k : α → Key) (l : List α), (sort k l).Pairwise fun a b => Key.le (k a) (k b) = true
  natural : ∀ {α β : Type} (k : β → Key) (f : α → β) (l : List α), sort k (l.map f) = (sort (fun a => k (f a)) l).map f

end Gearley
