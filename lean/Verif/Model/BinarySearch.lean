import Verif.Model.Effects

/-!
# `<[T]>::binary_search_by` (std)

The branch-reduced loop of the Rust standard library: `size` is halved until one candidate is left.
-/

namespace Gearley

/-- The loop `while size > 1` of `binary_search_by`. The first argument is fuel, called with the slice length; every
round at least halves `size`, so it never runs out. -/
def bsearchLoop {α} (l : List α) (f : α → M Ordering) : Nat → Nat → Nat → M Nat
  | 0, _, base => pure base
  | fuel + 1, size, base =>
    if size > 1 then do
      let half := size / 2
      let mid := base + half
      let x ← indexM l mid
      let c ← f x
      bsearchLoop l f fuel (size - half) (if c = .gt then base else mid)
    else pure base

/-- `slice.binary_search_by(f)`: `.ok idx` for `Ok(idx)`, `.error idx` for `Err(idx)`. -/
def bsearchBy {α} (l : List α) (f : α → M Ordering) : M (Except Nat Nat) :=
  if l.length = 0 then pure (.error 0)
  else do
    let base ← bsearchLoop l f l.length l.length 0
    let x ← indexM l base
    let c ← f x
    if c = .eq then pure (.ok base)
    else pure (.error (base + if c = .lt then 1 else 0))

end Gearley
