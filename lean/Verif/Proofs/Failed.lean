import Verif.Proofs.Drivers

/-!
# The recognizer after a position that failed
-/

namespace Gearley
open Gearley.Spec
variable {σ ν : Type} {E : Env σ ν}

theorem foldlM_inv {α β : Type} {f : β → α → M β} {P : β → Prop} {l : List α} {b b' : β}
    (hf : ∀ b a b', P b → f b a = pure b' → P b') (hb : P b) (h : l.foldlM f b = pure b') : P b' := by
  induction l generalizing b with
  | nil => cases pure_inj_M h; exact hb
  | cons a l ih =>
    rw [List.foldlM_cons] at h
    obtain ⟨b1, h1, h2⟩ := bind_eq_pure h
    exact ih (hf b a b1 hb h1) h2

namespace Rec

theorem completeMedialItem_indices {link : ν} {s s' : Rec σ ν} {it : Item ν}
    (h : completeMedialItem E link s it = pure s') : s'.medial = s.medial := by
  unfold completeMedialItem at h
  obtain ⟨u, _, h⟩ := bind_eq_pure h
  split at h
  · obtain ⟨⟨fo, nd⟩, _, h⟩ := bind_eq_pure h
    obtain ⟨hp, _, h⟩ := bind_eq_pure h
    cases pure_inj_M h
    rfl
  · cases pure_inj_M h; rfl

theorem completePrediction_indices {setId : Nat} {link : ν} {p p' : Rec σ ν × Nat} {t : PT}
    (h : completePrediction E setId link p t = pure p') : p'.1.medial.indices = p.1.medial.indices := by
  unfold completePrediction at h
  obtain ⟨_, _, h⟩ := bind_eq_pure h
  obtain ⟨_, _, h⟩ := bind_eq_pure h
  split at h
  · cases pure_inj_M h; rfl
  · cases pure_inj_M h; rfl

theorem completePredictions_indices {s s' : Rec σ ν} {setId sym : Nat} {link : ν}
    (h : completePredictions E s setId sym link = pure s') : s'.medial.indices = s.medial.indices := by
  unfold completePredictions at h
  obtain ⟨_, _, h⟩ := bind_eq_pure h
  obtain ⟨_, _, h⟩ := bind_eq_pure h
  obtain ⟨⟨s1, b⟩, h1, h⟩ := bind_eq_pure h
  obtain ⟨_, _, h⟩ := bind_eq_pure h
  obtain ⟨_, _, h⟩ := bind_eq_pure h
  obtain ⟨_, _, h⟩ := bind_eq_pure h
  obtain ⟨_, _, h⟩ := bind_eq_pure h
  cases pure_inj_M h
  exact foldlM_inv (P := fun p => p.1.medial.indices = s.medial.indices)
    (fun b a b' hb hab => (completePrediction_indices hab).trans hb) rfl h1

theorem completeGenerated_indices {s s' : Rec σ ν} {setId sym : Nat} {link : ν}
    (h : completeGenerated E s setId sym link = pure s') : s'.medial.indices = s.medial.indices := by
  unfold completeGenerated at h
  obtain ⟨⟨bi, un⟩, _, h⟩ := bind_eq_pure h
  obtain ⟨s1, h1, h⟩ := bind_eq_pure h
  have hs1 : s1.medial = s.medial := by
    cases un with
    | none => cases pure_inj_M h1; rfl
    | some t =>
      obtain ⟨_, _, h1⟩ := bind_eq_pure h1
      split at h1
      · obtain ⟨_, _, h1⟩ := bind_eq_pure h1
        cases pure_inj_M h1; rfl
      · cases pure_inj_M h1; rfl
  rw [← hs1]
  cases bi with
  | none => cases pure_inj_M h; rfl
  | some t =>
    obtain ⟨_, _, h⟩ := bind_eq_pure h
    split at h
    · cases pure_inj_M h; rfl
    · cases pure_inj_M h; rfl

theorem scan_indices {s s' : Rec σ ν} {sym v : Nat} (h : scan E s sym v = pure s') :
    s'.medial.indices = s.medial.indices := by
  unfold scan at h
  obtain ⟨_, _, h⟩ := bind_eq_pure h
  obtain ⟨⟨fo, nd⟩, _, h⟩ := bind_eq_pure h
  simp only [completeSym] at h
  split at h
  · exact (completeGenerated_indices h).trans rfl
  · obtain ⟨_, _, h⟩ := bind_eq_pure h
    split at h
    · split at h
      · exact absurd h panicM_ne_pure
      · obtain ⟨s1, h1, h⟩ := bind_eq_pure h
        rw [completePredictions_indices h]
        unfold completeMedialItems at h1
        obtain ⟨_, _, h1⟩ := bind_eq_pure h1
        obtain ⟨_, _, h1⟩ := bind_eq_pure h1
        exact foldlM_inv (P := fun t => t.medial.indices = s.medial.indices)
          (fun b a b' hb hab => by rw [completeMedialItem_indices hab]; exact hb) rfl h1
    · cases pure_inj_M h; rfl

/-- A session that fails gets through a number of positions and fails at the next; what remains is an empty set. -/
theorem session_failed {steps : List Step} {s s' : Rec σ ν} (h : session E steps s = pure (s', false)) :
    ∃ k t, k < steps.length ∧ session E (steps.take k) s = pure (t, true) ∧ s'.medial.len = t.medial.len + 1 ∧
      s'.isExhausted = pure true := by
  induction steps generalizing s with
  | nil => have := pure_inj_M h; simp at this
  | cons st rest ih =>
    obtain ⟨hi, toks⟩ := st
    rw [session_cons] at h
    obtain ⟨⟨s1, ok⟩, h1, h2⟩ := bind_eq_pure h
    cases ok with
    | true =>
      obtain ⟨k, t, h3, h4, h5, h6⟩ := ih h2
      refine ⟨k + 1, t, by simpa using h3, ?_, h5, h6⟩
      rw [List.take_succ_cons, session_cons, h1, pure_bind]
      exact h4
    | false =>
      have := pure_inj_M h2
      simp only [Prod.mk.injEq, and_true] at this
      subst this
      refine ⟨0, s, by simp, rfl, ?_⟩
      unfold position positionWith at h1
      obtain ⟨s2, h3, h4⟩ := bind_eq_pure h1
      have h5 : s2.medial.indices = (applyHint s hi).beginEarleme.medial.indices := by
        unfold scanAll at h3
        exact foldlM_inv (P := fun t => t.medial.indices = (applyHint s hi).beginEarleme.medial.indices)
          (fun b a b' hb hab => (scan_indices hab).trans hb) rfl h3
      unfold endEarlemeWith at h4
      obtain ⟨ex, h6, h4⟩ := bind_eq_pure h4
      split at h4
      · have := pure_inj_M h4
        simp only [Prod.mk.injEq, and_true] at this
        subst this
        refine ⟨?_, by rw [h6]; simp [*]⟩
        unfold Vec2d.len
        rw [h5]
        have : (applyHint s hi).medial = s.medial := by cases hi <;> rfl
        simp [beginEarleme, Vec2d.nextSet, this]
      · obtain ⟨_, _, h4⟩ := bind_eq_pure h4
        obtain ⟨_, _, h4⟩ := bind_eq_pure h4
        have := pure_inj_M h4
        simp at this

theorem finishedNode_exhausted {s : Rec σ ν} (h : s.isExhausted = pure true) (h2 : 2 ≤ s.medial.len)
    (h3 : s.medial.len ≤ 2 ^ 64) : finishedNode E s = pure none := by
  unfold isExhausted at h
  obtain ⟨l, h4, h5⟩ := bind_eq_pure h
  have h5 := pure_inj_M h5
  simp only [Bool.and_eq_true, List.isEmpty_iff] at h5
  unfold finishedNode
  have : ¬ (E.g.hasTrivialDerivation && s.earleme == maxUsize) = true := by
    have : s.earleme ≠ maxUsize := by
      unfold Rec.earleme wrappingSub2 maxUsize
      rw [if_pos h2]
      omega
    simp [this]
  rw [if_neg this, h4, pure_bind, h5.1]
  rfl

end Rec
end Gearley
