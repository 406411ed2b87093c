import Verif.Proofs.UserPacked
import Verif.Proofs.UserRename

/-! # Values of ambiguous inputs: renumbering -/

namespace Gearley.Spec
open Gearley
variable {U : URules} {f g : Nat → Nat} {inp inp' : Input} {α : Type} {E E' : Evaluator α} {nul : Nat → α}

/-- The alternative, one position to the left. -/
def UAlt.back (a : UAlt α) : UAlt α := { a with split := a.split - 1 }

theorem kids_iff (hfg : ∀ s, g (f s) = s) (hin : ∀ i a' v, (a', v) ∈ inp' (i + 1) → ∃ a, a' = f a ∧ (a, v) ∈ inp i)
    (hin' : ∀ i a v, (a, v) ∈ inp i → (f a, v) ∈ inp' (i + 1)) (ss : List Nat) (i p : Nat) :
    (∃ ts, UKids (URules.rename f U) inp' ts (ss.map f) (i + 1) (p + 1)) ↔ ∃ ts, UKids U inp ts ss i p := by
  constructor
  · rintro ⟨ts, h⟩
    obtain ⟨ts, j, _, e, h⟩ := h.reflect hfg hin ss i rfl rfl
    have : p = j := by omega
    subst this
    exact ⟨ts, h⟩
  · rintro ⟨ts, h⟩
    exact ⟨_, h.rename hin'⟩

theorem tree_iff (hfg : ∀ s, g (f s) = s) (hin : ∀ i a' v, (a', v) ∈ inp' (i + 1) → ∃ a, a' = f a ∧ (a, v) ∈ inp i)
    (hin' : ∀ i a v, (a, v) ∈ inp i → (f a, v) ∈ inp' (i + 1)) (s i p : Nat) :
    (∃ t, UTreeOf (URules.rename f U) inp' t (f s) (i + 1) (p + 1)) ↔ ∃ t, UTreeOf U inp t s i p := by
  constructor
  · rintro ⟨t, h⟩
    obtain ⟨t, j, _, e, h⟩ := h.reflect hfg hin s i rfl rfl
    have : p = j := by omega
    subst this
    exact ⟨t, h⟩
  · rintro ⟨t, h⟩
    exact ⟨_, h.rename hin'⟩

mutual
theorem UVals.reflect (hfg : ∀ s, g (f s) = s) (hin : ∀ i a' v, (a', v) ∈ inp' (i + 1) → ∃ a, a' = f a ∧ (a, v) ∈ inp i)
    (hin' : ∀ i a v, (a, v) ∈ inp i → (f a, v) ∈ inp' (i + 1)) (hl : ∀ s v, E'.leaf s v = E.leaf (f s) v) (hpr : E'.product = E.product)
    {A' i' j' n : Nat} {vs : List α} (h : UVals (URules.rename f U) E nul inp' A' i' j' vs n) :
    ∀ A i, A' = f A → i' = i + 1 → ∃ j, j' = j + 1 ∧ UVals U E' (fun s => nul (f s)) inp A i j vs n :=
  match h with
  | .leaf hm => by
    rintro A i rfl rfl
    obtain ⟨a, h1, h2⟩ := hin i _ _ hm
    have : a = A := by rw [← hfg a, ← h1, hfg]
    subst this
    refine ⟨i + 1, rfl, ?_⟩
    rw [← hl]
    exact .leaf h2
  | .empty hn => by
    rintro A i rfl rfl
    exact ⟨i, rfl, .empty (U := U) (nul := fun s => nul (f s)) ((UNullable.iff hfg).1 hn)⟩
  | .node (j := j') as hij hne hnd hall hleft hright => by
    have ihl := fun a ha ss y hU => (hleft a ha ss y hU).reflect hfg hin hin' hl hpr
    have ihr := fun a ha ss y hU => (hright a ha ss y hU).reflect hfg hin hin' hl hpr
    clear hleft hright
    rintro A i rfl rfl
    obtain ⟨j, rfl⟩ : ∃ j, j' = j + 1 := ⟨j' - 1, by omega⟩
    have hrule : ∀ {k : Nat} {ss' : List Nat} {y' : Nat}, (URules.rename f U)[k]? = some (f A, ss' ++ [y']) →
        ∃ ss y, ss' = ss.map f ∧ y' = f y ∧ U[k]? = some (A, ss ++ [y]) := by
      intro k ss' y' h
      obtain ⟨A2, rhs, h1, h2, h3⟩ := URules.of_rename h
      have : A = A2 := by rw [← hfg A, h2, hfg]
      subst this
      obtain ⟨ss, l, e1, e2, e3⟩ := List.map_eq_append_iff.1 h3.symm
      obtain ⟨y, l', e4, e5, e6⟩ := List.map_eq_cons_iff.1 e3
      have : l' = [] := by simpa using e6
      subst this
      exact ⟨ss, y, e2.symm, e5.symm, by rw [h1, e1, e4]⟩
    have hto : ∀ {k : Nat} {ss : List Nat} {y : Nat}, U[k]? = some (A, ss ++ [y]) → (URules.rename f U)[k]? = some (f A, ss.map f ++ [f y]) := by
      intro k ss y h
      have := URules.rename_some (f := f) h
      rwa [List.map_append, List.map_cons, List.map_nil] at this
    have hpos : ∀ a ∈ as, a.split - 1 + 1 = a.split := by
      intro a ha
      obtain ⟨_, _, _, _, _, h1, _⟩ := (hall a.rule a.split).1 (List.mem_map.2 ⟨a, ha, rfl⟩)
      have := h1.le
      omega
    refine ⟨j, rfl, ?_⟩
    have e1 : (as.map fun a => E.product a.rule (a.left ++ a.right)) = (as.map UAlt.back).map fun a => E'.product a.rule (a.left ++ a.right) := by
      rw [List.map_map, hpr]; rfl
    have e2 : (as.map fun a => a.countL + a.countR + 1) = (as.map UAlt.back).map fun a => a.countL + a.countR + 1 := by
      rw [List.map_map]; rfl
    rw [e1, e2]
    refine .node (as.map UAlt.back) (by omega) (by simpa using hne) ?_ (fun k p => ?_) ?_ ?_
    · unfold List.Nodup at hnd ⊢
      rw [List.map_map, List.pairwise_map]
      rw [List.pairwise_map] at hnd
      refine hnd.imp_of_mem fun {a a'} ha ha' hne' e => hne' ?_
      simp only [Function.comp, UAlt.back, Prod.mk.injEq] at e ⊢
      have := hpos a ha
      have := hpos a' ha'
      exact ⟨e.1, by omega⟩
    · have h1 : (k, p) ∈ ((as.map UAlt.back).map fun a => (a.rule, a.split)) ↔ (k, p + 1) ∈ as.map fun a => (a.rule, a.split) := by
        simp only [List.mem_map, Prod.mk.injEq, exists_exists_and_eq_and, UAlt.back]
        constructor
        · rintro ⟨a, ha, e1, e2⟩
          exact ⟨a, ha, e1, by have := hpos a ha; omega⟩
        · rintro ⟨a, ha, e1, e2⟩
          exact ⟨a, ha, e1, by omega⟩
      rw [h1, hall]
      constructor
      · rintro ⟨ss', y', ts, t, k1, k2, k3⟩
        obtain ⟨ss, y, rfl, rfl, k4⟩ := hrule k1
        obtain ⟨ts, k2⟩ := (kids_iff hfg hin hin' ss i p).1 ⟨_, k2⟩
        obtain ⟨t, k3⟩ := (tree_iff hfg hin hin' y p j).1 ⟨_, k3⟩
        exact ⟨ss, y, ts, t, k4, k2, k3⟩
      · rintro ⟨ss, y, ts, t, k1, k2, k3⟩
        obtain ⟨ts, k2⟩ := (kids_iff hfg hin hin' ss i p).2 ⟨_, k2⟩
        obtain ⟨t, k3⟩ := (tree_iff hfg hin hin' y p j).2 ⟨_, k3⟩
        exact ⟨_, _, ts, t, hto k1, k2, k3⟩
    · intro b hb ss y hU
      obtain ⟨a, ha, rfl⟩ := List.mem_map.1 hb
      obtain ⟨q, e, h⟩ := ihl a ha _ _ (hto hU) ss i rfl rfl
      have : q = a.split - 1 := by omega
      subst this
      exact h
    · intro b hb ss y hU
      obtain ⟨a, ha, rfl⟩ := List.mem_map.1 hb
      obtain ⟨q, e, h⟩ := ihr a ha _ _ (hto hU) y (a.split - 1) rfl (hpos a ha).symm
      have : q = j := by omega
      subst this
      exact h
theorem UPrefix.reflect (hfg : ∀ s, g (f s) = s) (hin : ∀ i a' v, (a', v) ∈ inp' (i + 1) → ∃ a, a' = f a ∧ (a, v) ∈ inp i)
    (hin' : ∀ i a v, (a, v) ∈ inp i → (f a, v) ∈ inp' (i + 1)) (hl : ∀ s v, E'.leaf s v = E.leaf (f s) v) (hpr : E'.product = E.product)
    {ss' : List Nat} {i' j' n : Nat} {vs : List α} (h : UPrefix (URules.rename f U) E nul inp' ss' i' j' vs n) :
    ∀ ss i, ss' = ss.map f → i' = i + 1 → ∃ j, j' = j + 1 ∧ UPrefix U E' (fun s => nul (f s)) inp ss i j vs n :=
  match h with
  | .nil => by
    rintro ss i e rfl
    have : ss = [] := by simpa using e.symm
    subst this
    exact ⟨i, rfl, .nil⟩
  | .snoc (ss := ss') (y := y') (j := j') as hne hnd hall hleft hright => by
    have ihl := fun a ha => (hleft a ha).reflect hfg hin hin' hl hpr
    have ihr := fun a ha => (hright a ha).reflect hfg hin hin' hl hpr
    clear hleft hright
    rintro ss0 i e rfl
    obtain ⟨ss, l, e1, e2, e3⟩ := List.map_eq_append_iff.1 e.symm
    obtain ⟨y, l', e4, e5, e6⟩ := List.map_eq_cons_iff.1 e3
    have : l' = [] := by simpa using e6
    subst this e4 e1 e2 e5
    have hpos : ∀ a ∈ as, a.split - 1 + 1 = a.split ∧ i + 1 ≤ a.split ∧ a.split ≤ j' := by
      intro a ha
      obtain ⟨_, _, h1, h2⟩ := (hall a.split).1 (List.mem_map.2 ⟨a, ha, rfl⟩)
      have := h1.le
      have := h2.le
      omega
    obtain ⟨j, rfl⟩ : ∃ j, j' = j + 1 := by
      obtain ⟨a, ha⟩ := List.exists_mem_of_ne_nil _ hne
      have := hpos a ha
      exact ⟨j' - 1, by omega⟩
    refine ⟨j, rfl, ?_⟩
    have e1 : (as.flatMap fun a => a.left ++ a.right) = (as.map UAlt.back).flatMap fun a => a.left ++ a.right := by
      rw [List.flatMap_map]; rfl
    have e2 : (as.map fun a => a.countL + a.countR) = (as.map UAlt.back).map fun a => a.countL + a.countR := by
      rw [List.map_map]; rfl
    rw [e1, e2]
    refine .snoc (as.map UAlt.back) (by simpa using hne) ?_ (fun p => ?_) ?_ ?_
    · unfold List.Nodup at hnd ⊢
      rw [List.map_map, List.pairwise_map]
      rw [List.pairwise_map] at hnd
      refine hnd.imp_of_mem fun {a a'} ha ha' hne' e => hne' ?_
      simp only [Function.comp, UAlt.back] at e ⊢
      have := hpos a ha
      have := hpos a' ha'
      omega
    · have h1 : p ∈ ((as.map UAlt.back).map fun a => a.split) ↔ p + 1 ∈ as.map fun a => a.split := by
        simp only [List.mem_map, exists_exists_and_eq_and, UAlt.back]
        constructor
        · rintro ⟨a, ha, e2⟩
          exact ⟨a, ha, by have := hpos a ha; omega⟩
        · rintro ⟨a, ha, e2⟩
          exact ⟨a, ha, by omega⟩
      rw [h1, hall]
      constructor
      · rintro ⟨ts, t, k2, k3⟩
        obtain ⟨ts, k2⟩ := (kids_iff hfg hin hin' ss i p).1 ⟨_, k2⟩
        obtain ⟨t, k3⟩ := (tree_iff hfg hin hin' y p j).1 ⟨_, k3⟩
        exact ⟨ts, t, k2, k3⟩
      · rintro ⟨ts, t, k2, k3⟩
        obtain ⟨ts, k2⟩ := (kids_iff hfg hin hin' ss i p).2 ⟨_, k2⟩
        obtain ⟨t, k3⟩ := (tree_iff hfg hin hin' y p j).2 ⟨_, k3⟩
        exact ⟨ts, t, k2, k3⟩
    · intro b hb
      obtain ⟨a, ha, rfl⟩ := List.mem_map.1 hb
      obtain ⟨q, e, h⟩ := ihl a ha ss i rfl rfl
      have : q = a.split - 1 := by omega
      subst this
      exact h
    · intro b hb
      obtain ⟨a, ha, rfl⟩ := List.mem_map.1 hb
      obtain ⟨q, e, h⟩ := ihr a ha y (a.split - 1) rfl (hpos a ha).1.symm
      have : q = j := by omega
      subst this
      exact h
end

end Gearley.Spec
