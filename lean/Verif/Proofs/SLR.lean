import Verif.Spec.SLR
import Verif.Proofs.LR

/-!
# A grammar that passes the check is LR(1)
-/

namespace Gearley.Spec
variable {P : URules} {S : Nat} {T : SLRTable}

theorem isToken_iff {X : Nat} : isToken P X = true ↔ UTerminal P X := by
  unfold isToken UTerminal
  simp

/-- What the check ensures. -/
structure SLR (P : URules) (S : Nat) (T : SLRTable) : Prop where
  ne : NoEmpty P
  first : ∀ A X l, (A, X :: l) ∈ P → ∀ t ∈ T.firstOf P X, t ∈ T.firstOf P A
  followS : none ∈ T.followOf S
  followEnd : ∀ C μ A, (C, μ ++ [A]) ∈ P → ¬ UTerminal P A → ∀ t ∈ T.followOf C, t ∈ T.followOf A
  followIn : ∀ C μ A Y l, (C, μ ++ A :: Y :: l) ∈ P → ¬ UTerminal P A → ∀ t ∈ T.firstOf P Y, some t ∈ T.followOf A
  start : 0 < T.items.length → ∀ k β, P[k]? = some (S, β) → (k, 0) ∈ T.itemsAt 0
  closed : ∀ i, i < T.items.length → ∀ k j, (k, j) ∈ T.itemsAt i → ∀ r X, P[k]? = some r → r.2[j]? = some X →
    (∀ k' β, P[k']? = some (X, β) → (k', 0) ∈ T.itemsAt i) ∧ ∃ i', T.next i X = some i' ∧ i' < T.items.length ∧ (k, j + 1) ∈ T.itemsAt i'
  reduce : ∀ i, i < T.items.length → ∀ k k' r r', P[k]? = some r → P[k']? = some r' → (k, r.2.length) ∈ T.itemsAt i →
    (k', r'.2.length) ∈ T.itemsAt i → r = r' ∨ ∀ t ∈ T.followOf r.1, t ∉ T.followOf r'.1
  shift : ∀ i, i < T.items.length → ∀ k k' j' r r' X, P[k]? = some r → P[k']? = some r' → (k, r.2.length) ∈ T.itemsAt i →
    (k', j') ∈ T.itemsAt i → r'.2[j']? = some X → UTerminal P X → some X ∉ T.followOf r.1

theorem hasRules_spec {i X : Nat} (h : T.hasRules P i X = true) {k : Nat} {β : List Nat} (hk : P[k]? = some (X, β)) : (k, 0) ∈ T.itemsAt i := by
  have := List.all_eq_true.1 h k (List.mem_range.2 (List.getElem?_eq_some_iff.1 hk).1)
  rw [hk] at this
  simpa using this

theorem SLR.of_check (h : T.check P S = true) : SLR P S T := by
  unfold SLRTable.check at h
  simp only [Bool.and_eq_true] at h
  obtain ⟨⟨⟨h1, h2⟩, h3⟩, h4⟩ := h
  have hf : ∀ r ∈ P, ∃ X l, r.2 = X :: l ∧ ∀ t ∈ T.firstOf P X, t ∈ T.firstOf P r.1 := by
    intro r hr
    have := List.all_eq_true.1 h1 r hr
    match hr2 : r.2 with
    | [] => rw [hr2] at this; simp at this
    | X :: l =>
      rw [hr2] at this
      refine ⟨X, l, rfl, fun t ht => ?_⟩
      have := List.all_eq_true.1 this t ht
      simpa using this
  unfold SLRTable.checkFollow at h2
  simp only [Bool.and_eq_true] at h2
  have hfol : ∀ r ∈ P, ∀ j A, r.2[j]? = some A → ¬ UTerminal P A → (match r.2[j + 1]? with
    | none => (T.followOf r.1).all fun t => (T.followOf A).contains t
    | some Y => (T.firstOf P Y).all fun t => (T.followOf A).contains (some t)) = true := by
    intro r hr j A hj hA
    have := List.all_eq_true.1 (List.all_eq_true.1 h2.2 r hr) j (List.mem_range.2 (List.getElem?_eq_some_iff.1 hj).1)
    rw [hj] at this
    simp only [Bool.or_eq_true] at this
    exact this.resolve_left fun h => hA (isToken_iff.1 h)
  unfold SLRTable.checkStates at h3
  simp only [Bool.and_eq_true] at h3
  refine ⟨?_, ?_, by simpa using h2.1, ?_, ?_, fun _ k β hk => hasRules_spec h3.1 hk, ?_, ?_, ?_⟩
  · intro r hr e
    obtain ⟨X, l, e', _⟩ := hf r hr
    rw [e] at e'
    cases e'
  · intro A X l hr t ht
    obtain ⟨X', l', e, h⟩ := hf _ hr
    simp only [List.cons.injEq] at e
    exact h t (e.1 ▸ ht)
  · intro C μ A hr hA t ht
    have := hfol _ hr μ.length A (by simp) hA
    rw [List.getElem?_eq_none (by simp)] at this
    simpa using List.all_eq_true.1 this t ht
  · intro C μ A Y l hr hA t ht
    have := hfol _ hr μ.length A (by simp) hA
    simp only [List.getElem?_append_right (Nat.le_add_right _ 1), Nat.add_sub_cancel_left] at this
    simpa using List.all_eq_true.1 this t ht
  · intro i hi k j hm r X hk hX
    have := List.all_eq_true.1 (List.all_eq_true.1 h3.2 i (List.mem_range.2 hi)) (k, j) hm
    simp only [hk, hX, Bool.and_eq_true] at this
    refine ⟨fun k' β hk' => hasRules_spec this.1 hk', ?_⟩
    obtain ⟨_, this⟩ := this
    split at this
    · cases this
    · rename_i i' hn
      simp only [Bool.and_eq_true, decide_eq_true_eq, List.contains_iff_mem] at this
      exact ⟨i', hn, this⟩
  · intro i hi k k' r r' hk hk' hm hm'
    have := List.all_eq_true.1 (List.all_eq_true.1 h4 i (List.mem_range.2 hi)) _ hm
    simp only [hk, bne_self_eq_false, Bool.false_or] at this
    have := List.all_eq_true.1 this _ hm'
    simp only [hk', List.getElem?_length, Bool.or_eq_true, bne_self_eq_false, Bool.false_eq_true, or_false, beq_iff_eq] at this
    refine this.imp id fun h t ht => ?_
    simpa using List.all_eq_true.1 h t ht
  · intro i hi k k' j' r r' X hk hk' hm hm' hX hT
    have := List.all_eq_true.1 (List.all_eq_true.1 h4 i (List.mem_range.2 hi)) _ hm
    simp only [hk, bne_self_eq_false, Bool.false_or] at this
    have := List.all_eq_true.1 this _ hm'
    simp only [hk', hX, Bool.or_eq_true, Bool.not_eq_true', isToken_iff.2 hT] at this
    simpa using this

variable (h : SLR P S T)
include h

theorem SLR.head {Y : Nat} {ρ x : List Nat} (hs : RSteps P (Y :: ρ) x) (hx : Toks P x) : ∃ t, x.head? = some t ∧ t ∈ T.firstOf P Y := by
  generalize hφ : Y :: ρ = φ at hs
  induction hs using Relation.ReflTransGen.head_induction_on generalizing Y ρ with
  | refl =>
    subst hφ
    refine ⟨Y, rfl, ?_⟩
    have := isToken_iff.2 (hx Y (by simp))
    simp [SLRTable.firstOf, this]
  | head h1 _ ih =>
    subst hφ
    generalize hφ : Y :: ρ = φ at h1
    cases h1 with
    | @mk A β γ x' hr hx' =>
      cases γ with
      | nil =>
        simp only [List.nil_append, List.cons.injEq] at hφ
        obtain ⟨rfl, rfl⟩ := hφ
        match β, h.ne _ hr with
        | X :: l, _ =>
          obtain ⟨t, h1, h2⟩ := ih (Y := X) (ρ := l ++ ρ) (by simp)
          exact ⟨t, h1, h.first _ _ _ hr t h2⟩
      | cons Z γ =>
        simp only [List.cons_append, List.cons.injEq] at hφ
        obtain ⟨rfl, rfl⟩ := hφ
        exact ih (by simp only [List.cons_append]; rfl)

/-- The state reached. -/
def SLRTable.run (T : SLRTable) : Nat → List Nat → Option Nat
  | i, [] => some i
  | i, X :: γ => match T.next i X with
    | none => none
    | some i' => T.run i' γ

omit h in
theorem run_append {i : Nat} {γ δ : List Nat} : T.run i (γ ++ δ) = (T.run i γ).bind fun i' => T.run i' δ := by
  induction γ generalizing i with
  | nil => rfl
  | cons X γ ih =>
    simp only [List.cons_append, SLRTable.run]
    cases T.next i X with
    | none => rfl
    | some i' => exact ih

/-- Transitions along a part of a rule. -/
theorem SLR.along {k : Nat} {A : Nat} {α η : List Nat} {i j : Nat} {μ : List Nat} (hk : P[k]? = some (A, μ ++ α ++ η)) (hj : μ.length = j)
    (hi : i < T.items.length) (hm : (k, j) ∈ T.itemsAt i) : ∃ i', T.run i α = some i' ∧ i' < T.items.length ∧ (k, j + α.length) ∈ T.itemsAt i' := by
  induction α generalizing i j μ with
  | nil => exact ⟨i, rfl, hi, hm⟩
  | cons X α ih =>
    obtain ⟨_, i', h1, h2, h3⟩ := h.closed i hi k j hm _ X hk (by simp [← hj])
    obtain ⟨i'', h4, h5, h6⟩ := ih (μ := μ ++ [X]) (j := j + 1) (by simpa using hk) (by simp [hj]) h2 h3
    refine ⟨i'', by simp only [SLRTable.run, h1]; exact h4, h5, ?_⟩
    rw [List.length_cons, Nat.add_comm α.length, ← Nat.add_assoc]
    exact h6

theorem SLR.valid (h0 : 0 < T.items.length) {φ : List Nat} (hφ : RForm P S φ) : ∀ {γ ρ x : List Nat} {A : Nat}, φ = γ ++ A :: ρ → ¬ UTerminal P A →
    RSteps P ρ x → Toks P x → (∃ i, T.run 0 γ = some i ∧ i < T.items.length ∧ ∀ k β, P[k]? = some (A, β) → (k, 0) ∈ T.itemsAt i) ∧
      x.head? ∈ T.followOf A := by
  unfold RForm at hφ
  induction hφ with
  | refl =>
    intro γ ρ x A e hA hs hx
    match γ, e with
    | [], e =>
      simp only [List.nil_append, List.cons.injEq] at e
      obtain ⟨rfl, rfl⟩ := e
      have := RSteps.toks hs (fun t ht => (List.not_mem_nil ht).elim)
      subst this
      exact ⟨⟨0, rfl, h0, h.start h0⟩, h.followS⟩
    | _ :: γ, e =>
      simp at e
  | tail h1 h2 ih =>
    intro γ ρ x A e hA hs hx
    cases h2 with
    | @mk C μ γ1 x1 hr hx1 =>
      have hnC : ¬ UTerminal P C := fun h => h _ hr rfl
      rw [List.append_assoc] at e
      rcases List.append_eq_append_iff.1 e with ⟨a, e1, e2⟩ | ⟨a, e1, e2⟩
      · -- not in `γ1`
        subst e1
        rcases List.append_eq_append_iff.1 e2 with ⟨b, e3, e4⟩ | ⟨b, e3, e4⟩
        · exact absurd (hx1 A (by rw [e4]; simp)) hA
        · cases b with
          | nil => exact absurd (hx1 A (by rw [← (show A :: ρ = x1 by simpa using e4)]; simp)) hA
          | cons A' μ2 =>
            simp only [List.cons_append, List.cons.injEq] at e4
            obtain ⟨rfl, rfl⟩ := e4
            subst e3
            obtain ⟨k, hk⟩ := List.getElem?_of_mem hr
            obtain ⟨⟨i, i1, i2, i3⟩, i4⟩ := ih rfl hnC .refl hx1
            obtain ⟨i', j1, j2, j3⟩ := h.along (μ := []) (α := a) (η := A :: μ2) (by simpa using hk) rfl i2 (i3 k _ hk)
            refine ⟨⟨i', by rw [run_append, i1]; exact j1, j2, ?_⟩, ?_⟩
            · exact (h.closed i' j2 k _ j3 _ A hk (by simp)).1
            · cases μ2 with
              | nil =>
                have := RSteps.toks hs hx1
                rw [this]
                exact h.followEnd C a A hr hA _ i4
              | cons Y l =>
                obtain ⟨t, t1, t2⟩ := h.head hs hx
                rw [t1]
                exact h.followIn C a A Y l hr hA t t2
      · cases a with
        | nil =>
          -- same as above, at the beginning of `μ`
          simp only [List.nil_append, List.append_nil] at e1 e2
          subst e1
          cases μ with
          | nil => exact absurd rfl (h.ne _ hr)
          | cons A' μ2 =>
            simp only [List.cons_append, List.cons.injEq] at e2
            obtain ⟨rfl, rfl⟩ := e2
            obtain ⟨k, hk⟩ := List.getElem?_of_mem hr
            obtain ⟨⟨i, i1, i2, i3⟩, i4⟩ := ih rfl hnC .refl hx1
            refine ⟨⟨i, i1, i2, (h.closed i i2 k 0 (i3 k _ hk) _ A hk (by simp)).1⟩, ?_⟩
            cases μ2 with
            | nil =>
              have := RSteps.toks hs hx1
              rw [this]
              exact h.followEnd C [] A hr hA _ i4
            | cons Y l =>
              obtain ⟨t, t1, t2⟩ := h.head hs hx
              rw [t1]
              exact h.followIn C [] A Y l hr hA t t2
        | cons A' ρ1 =>
          simp only [List.cons_append, List.cons.injEq] at e2
          obtain ⟨rfl, rfl⟩ := e2
          subst e1
          exact ih (ρ := ρ1 ++ C :: x1) (by simp) hA (.head (by rw [← List.append_assoc]; exact .mk hr hx1) hs) hx

/-- The items before a symbol. -/
theorem SLR.before (h0 : 0 < T.items.length) {γ x : List Nat} {A : Nat} (hf : RForm P S (γ ++ A :: x)) (hx : Toks P x) {k : Nat} {α η : List Nat}
    (hk : P[k]? = some (A, α ++ η)) : ∃ i, T.run 0 (γ ++ α) = some i ∧ i < T.items.length ∧ (k, α.length) ∈ T.itemsAt i := by
  obtain ⟨⟨i, i1, i2, i3⟩, _⟩ := h.valid h0 hf rfl (fun h => h _ (List.mem_of_getElem? hk) rfl) .refl hx
  obtain ⟨i', j1, j2, j3⟩ := h.along (μ := []) (α := α) (η := η) hk rfl i2 (i3 k _ hk)
  exact ⟨i', by rw [run_append, i1]; exact j1, j2, by simpa using j3⟩

omit h in
/-- Where a symbol that is not after the last rule comes from. -/
theorem introduced {φ : List Nat} (hφ : RForm P S φ) : ∀ {π ρ x : List Nat} {t A : Nat}, φ = π ++ t :: ρ ++ A :: x → ¬ UTerminal P A → Toks P x →
    ∃ γ C α η x', RForm P S (γ ++ C :: x') ∧ Toks P x' ∧ (C, α ++ t :: η) ∈ P ∧ π = γ ++ α := by
  unfold RForm at hφ
  induction hφ with
  | refl =>
    intro π ρ x t A e
    have := congrArg List.length e
    simp at this
    omega
  | tail h1 h2 ih =>
    intro π ρ x t A e hA hx
    cases h2 with
    | @mk C μ γ1 x1 hr hx1 =>
      have e' : γ1 ++ (μ ++ x1) = π ++ t :: (ρ ++ A :: x) := by simpa using e
      rcases List.append_eq_append_iff.1 e' with ⟨a, e1, e2⟩ | ⟨a, e1, e2⟩
      · subst e1
        rcases List.append_eq_append_iff.1 e2 with ⟨b, e3, e4⟩ | ⟨b, e3, e4⟩
        · exact absurd (hx1 A (by rw [e4]; simp)) hA
        · cases b with
          | nil => exact absurd (hx1 A (by rw [← (show t :: (ρ ++ A :: x) = x1 by simpa using e4)]; simp)) hA
          | cons t' η =>
            simp only [List.cons_append, List.cons.injEq] at e4
            obtain ⟨rfl, _⟩ := e4
            subst e3
            exact ⟨γ1, C, a, η, x1, h1, hx1, hr, rfl⟩
      · cases a with
        | nil =>
          simp only [List.nil_append, List.append_nil] at e1 e2
          subst e1
          cases μ with
          | nil => exact absurd (hx1 A (by rw [← (show t :: (ρ ++ A :: x) = x1 by simpa using e2)]; simp)) hA
          | cons t' η =>
            simp only [List.cons_append, List.cons.injEq] at e2
            obtain ⟨rfl, _⟩ := e2
            exact ⟨γ1, C, [], η, x1, h1, hx1, hr, by simp⟩
        | cons t' ρ1 =>
          simp only [List.cons_append, List.cons.injEq] at e2
          obtain ⟨rfl, _⟩ := e2
          subst e1
          exact ih (ρ := ρ1) (A := C) (x := x1) (by simp) (fun h => h _ hr rfl) hx1

/-- A token cannot be read at the end of a rule that may be followed by it. -/
theorem SLR.no_shift (h0 : 0 < T.items.length) {γ δ β β' x y z : List Nat} {A B t : Nat} (hx : Toks P x) (hy : Toks P y)
    (h1 : RForm P S (γ ++ A :: x)) (hr : (A, β) ∈ P) (h2 : RForm P S (δ ++ B :: y)) (hr' : (B, β') ∈ P) (ht : UTerminal P t)
    (hxt : x.head? = some t) (e : δ ++ β' = γ ++ β ++ t :: z) : False := by
  obtain ⟨k, hk⟩ := List.getElem?_of_mem hr
  obtain ⟨i, i1, i2, i3⟩ := h.before h0 h1 hx (α := β) (η := []) (by simpa using hk)
  obtain ⟨_, i4⟩ := h.valid h0 h1 rfl (fun h => h _ hr rfl) .refl hx
  rw [hxt] at i4
  obtain ⟨γ', C, α, η, x', k1, k2, k3, k4⟩ : ∃ γ' C α η x', RForm P S (γ' ++ C :: x') ∧ Toks P x' ∧ (C, α ++ t :: η) ∈ P ∧ γ ++ β = γ' ++ α := by
    rcases List.append_eq_append_iff.1 e with ⟨a, e1, e2⟩ | ⟨a, e1, e2⟩
    · subst e2
      exact ⟨δ, B, a, z, y, h2, hy, hr', e1⟩
    · cases a with
      | nil =>
        simp only [List.nil_append, List.append_nil] at e1 e2
        subst e2
        exact ⟨δ, B, [], z, y, h2, hy, hr', by simp [e1]⟩
      | cons t' ρ =>
        simp only [List.cons_append, List.cons.injEq] at e2
        obtain ⟨rfl, _⟩ := e2
        subst e1
        exact introduced h2 (π := γ ++ β) (ρ := ρ) (by simp) (fun h => h _ hr' rfl) hy
  obtain ⟨k', hk'⟩ := List.getElem?_of_mem k3
  obtain ⟨i', j1, j2, j3⟩ := h.before h0 k1 k2 (α := α) (η := t :: η) hk'
  rw [← k4, i1, Option.some.injEq] at j1
  subst j1
  exact h.shift i i2 k k' α.length _ _ t hk hk' i3 j3 (by simp) ht i4

/-- A grammar that passes the check is LR(1). -/
theorem SLR.lr1 (h0 : 0 < T.items.length) : LR1 P S := by
  intro γ δ β β' A B x y z hx hy hz h1 hr h2 hr' e hh
  have e : (γ ++ β) ++ z = (δ ++ β') ++ y := e
  rcases List.append_eq_append_iff.1 e with ⟨a, e1, e2⟩ | ⟨a, e1, e2⟩
  · cases a with
    | nil =>
      simp only [List.nil_append, List.append_nil] at e1 e2
      subst e2
      -- the same position
      obtain ⟨k, hk⟩ := List.getElem?_of_mem hr
      obtain ⟨k', hk'⟩ := List.getElem?_of_mem hr'
      obtain ⟨i, i1, i2, i3⟩ := h.before h0 h1 hx (α := β) (η := []) (by simpa using hk)
      obtain ⟨i', j1, j2, j3⟩ := h.before h0 h2 hy (α := β') (η := []) (by simpa using hk')
      rw [e1, i1, Option.some.injEq] at j1
      subst j1
      obtain ⟨_, f1⟩ := h.valid h0 h1 rfl (fun h => h _ hr rfl) .refl hx
      obtain ⟨_, f2⟩ := h.valid h0 h2 rfl (fun h => h _ hr' rfl) .refl hy
      rcases h.reduce i i2 k k' _ _ hk hk' i3 j3 with e | e
      · simp only [Prod.mk.injEq] at e
        obtain ⟨rfl, rfl⟩ := e
        rw [List.append_cancel_right e1]
      · exact absurd f2 (hh ▸ e _ f1)
    | cons t a =>
      -- the second is longer
      subst e2
      exact (h.no_shift h0 hx hy h1 hr h2 hr' (hz t (by simp)) (by rw [← hh]; rfl) e1).elim
  · cases a with
    | nil =>
      simp only [List.nil_append, List.append_nil] at e1 e2
      subst e2
      obtain ⟨k, hk⟩ := List.getElem?_of_mem hr
      obtain ⟨k', hk'⟩ := List.getElem?_of_mem hr'
      obtain ⟨i, i1, i2, i3⟩ := h.before h0 h1 hx (α := β) (η := []) (by simpa using hk)
      obtain ⟨i', j1, j2, j3⟩ := h.before h0 h2 hy (α := β') (η := []) (by simpa using hk')
      rw [← e1, i1, Option.some.injEq] at j1
      subst j1
      obtain ⟨_, f1⟩ := h.valid h0 h1 rfl (fun h => h _ hr rfl) .refl hx
      obtain ⟨_, f2⟩ := h.valid h0 h2 rfl (fun h => h _ hr' rfl) .refl hy
      rcases h.reduce i i2 k k' _ _ hk hk' i3 j3 with e | e
      · simp only [Prod.mk.injEq] at e
        obtain ⟨rfl, rfl⟩ := e
        rw [List.append_cancel_right e1]
      · exact absurd f2 (hh ▸ e _ f1)
    | cons t a =>
      subst e2
      exact (h.no_shift h0 hy hx h2 hr' h1 hr (hy t (by simp)) rfl e1).elim

end Gearley.Spec
