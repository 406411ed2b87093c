import Verif.Model.BinarySearch
import Verif.Proofs.Effects

/-! # Correctness of the std binary search -/

namespace Gearley

/-- `lt < eq < gt`. -/
def ordRank : Ordering → Nat
  | .lt => 0
  | .eq => 1
  | .gt => 2

theorem bsearchLoop_spec {α} (l : List α) (f : α → M Ordering) (g : α → Ordering) (hf : ∀ x ∈ l, f x = pure (g x))
    (fuel size base : Nat) (hfuel : size ≤ fuel + 1) (hs : 1 ≤ size) (hb : base + size ≤ l.length)
    (h1 : ∀ h : base < l.length, 0 < base → g l[base] ≠ .gt)
    (h2 : ∀ j (h : j < l.length), base + size ≤ j → g l[j] = .gt)
    (hsort : ∀ i j (hi : i < l.length) (hj : j < l.length), i ≤ j → ordRank (g l[i]) ≤ ordRank (g l[j])) :
    Returns (bsearchLoop l f fuel size base) (fun b => ∃ hb : b < l.length, (0 < b → g l[b] ≠ .gt) ∧
      ∀ j (h : j < l.length), b + 1 ≤ j → g l[j] = .gt) := by
  induction fuel generalizing size base with
  | zero =>
    have : size = 1 := by omega
    subst this
    exact returns_pure ⟨by omega, h1 (by omega), h2⟩
  | succ fuel ih =>
    unfold bsearchLoop
    split
    · next hgt =>
      have hmid : base + size / 2 < l.length := by omega
      simp only [indexM_lt hmid, pure_bind, hf _ (List.getElem_mem hmid)]
      split
      · next hc =>
        apply ih (size - size / 2) base (by omega) (by omega) (by omega) h1
        intro j hj hle
        have := hsort _ j hmid hj (by omega)
        rw [hc] at this
        revert this
        cases g l[j] <;> simp [ordRank]
      · next hc =>
        apply ih (size - size / 2) (base + size / 2) (by omega) (by omega) (by omega)
        · intro h _; exact hc
        · intro j hj hle; exact h2 j hj (by omega)
    · next hle =>
      have : size = 1 := by omega
      subst this
      exact returns_pure ⟨by omega, h1 (by omega), h2⟩

/-- Binary search on a slice whose comparison results are ordered `lt.. eq.. gt..`. -/
theorem bsearchBy_spec {α} (l : List α) (f : α → M Ordering) (g : α → Ordering) (hf : ∀ x ∈ l, f x = pure (g x))
    (hsort : ∀ i j (hi : i < l.length) (hj : j < l.length), i ≤ j → ordRank (g l[i]) ≤ ordRank (g l[j])) :
    Returns (bsearchBy l f) (fun r => match r with
      | .ok i => ∃ h : i < l.length, g l[i] = .eq
      | .error i => i ≤ l.length ∧ (∀ j (h : j < l.length), j < i → g l[j] = .lt) ∧
          (∀ j (h : j < l.length), i ≤ j → g l[j] = .gt)) := by
  unfold bsearchBy
  split
  · next h0 => exact returns_pure ⟨by omega, fun j h => by omega, fun j h => by omega⟩
  · next h0 =>
    refine returns_bind ((bsearchLoop_spec l f g hf l.length l.length 0 (by omega) (by omega) (by omega)
      (fun _ h => by omega) (fun j h hj => by omega) hsort).mono ?_)
    rintro b ⟨hb, h1, h2⟩
    simp only [indexM_lt hb, pure_bind, hf _ (List.getElem_mem hb)]
    split
    · next hc => exact returns_pure ⟨hb, hc⟩
    · next hc =>
      refine returns_pure ?_
      simp only
      split
      · next hlt =>
        refine ⟨by omega, ?_, h2⟩
        intro j hj hlt'
        have := hsort j b hj hb (by omega)
        rw [hlt] at this
        revert this
        cases g l[j] <;> simp [ordRank]
      · next hlt =>
        have hgt : g l[b] = .gt := by
          revert hc hlt; cases g l[b] <;> simp
        have hb0 : b = 0 := by
          rcases Nat.eq_zero_or_pos b with h | h
          · exact h
          · exact absurd hgt (h1 h)
        subst hb0
        refine ⟨by omega, fun j _ h => by omega, ?_⟩
        intro j hj _
        rcases Nat.eq_zero_or_pos j with h | h
        · subst h; exact hgt
        · exact h2 j hj (by omega)

end Gearley
