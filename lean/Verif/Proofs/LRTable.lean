import Verif.Spec.LRTable
import Verif.Proofs.SLR

/-!
# A grammar whose LR(1) table passes the check is LR(1)
-/

namespace Gearley.Spec
variable {P : URules} {S : Nat} {T : LRTable}

/-- What the check ensures. -/
structure LRTableOK (P : URules) (S : Nat) (T : LRTable) : Prop where
  pos : 0 < T.items.length
  first : ∀ A β, (A, β) ∈ P → (∀ t ∈ T.starts P β, t ∈ T.firstOf P A) ∧ (β.all (T.vanishes P) = true → T.vanishes P A = true)
  start : ∀ k β, P[k]? = some (S, β) → (k, 0, none) ∈ T.itemsAt 0
  closed : ∀ i, i < T.items.length → ∀ k j a, (k, j, a) ∈ T.itemsAt i → ∀ r X, P[k]? = some r → r.2[j]? = some X →
    (∀ b ∈ T.ahead P (r.2.drop (j + 1)) a, ∀ k' β, P[k']? = some (X, β) → (k', 0, b) ∈ T.itemsAt i) ∧
    ∃ i', T.next i X = some i' ∧ i' < T.items.length ∧ (k, j + 1, a) ∈ T.itemsAt i'
  reduce : ∀ i, i < T.items.length → ∀ k k' r r' a, P[k]? = some r → P[k']? = some r' → (k, r.2.length, a) ∈ T.itemsAt i →
    (k', r'.2.length, a) ∈ T.itemsAt i → r = r'
  shift : ∀ i, i < T.items.length → ∀ k k' j' r r' X a, P[k]? = some r → P[k']? = some r' → (k, r.2.length, some X) ∈ T.itemsAt i →
    (k', j', a) ∈ T.itemsAt i → r'.2[j']? = some X → ¬ UTerminal P X

theorem LRTable.hasRules_spec {i X : Nat} {b : Option Nat} (h : T.hasRules P i X b = true) {k : Nat} {β : List Nat} (hk : P[k]? = some (X, β)) :
    (k, 0, b) ∈ T.itemsAt i := by
  have := List.all_eq_true.1 h k (List.mem_range.2 (List.getElem?_eq_some_iff.1 hk).1)
  rw [hk] at this
  simpa using this

theorem LRTableOK.of_check (h : T.check P S = true) : LRTableOK P S T := by
  unfold LRTable.check at h
  simp only [Bool.and_eq_true, decide_eq_true_eq] at h
  obtain ⟨⟨⟨h1, h2⟩, h3⟩, h4⟩ := h
  unfold LRTable.checkStates at h3
  simp only [Bool.and_eq_true] at h3
  refine ⟨h1, ?_, fun k β hk => LRTable.hasRules_spec h3.1 hk, ?_, ?_, ?_⟩
  · intro A β hr
    have := List.all_eq_true.1 h2 _ hr
    simp only [Bool.and_eq_true, Bool.or_eq_true, Bool.not_eq_true'] at this
    refine ⟨fun t ht => ?_, fun hv => ?_⟩
    · simpa using List.all_eq_true.1 this.1 t ht
    · exact this.2.resolve_left fun h => by rw [hv] at h; cases h
  · intro i hi k j a hm r X hk hX
    have := List.all_eq_true.1 (List.all_eq_true.1 h3.2 i (List.mem_range.2 hi)) _ hm
    simp only [hk, hX, Bool.and_eq_true] at this
    refine ⟨fun b hb k' β hk' => LRTable.hasRules_spec (List.all_eq_true.1 this.1 b hb) hk', ?_⟩
    obtain ⟨_, this⟩ := this
    split at this
    · cases this
    · rename_i i' hn
      simp only [Bool.and_eq_true, decide_eq_true_eq, List.contains_iff_mem] at this
      exact ⟨i', hn, this⟩
  · intro i hi k k' r r' a hk hk' hm hm'
    have := List.all_eq_true.1 (List.all_eq_true.1 h4 i (List.mem_range.2 hi)) _ hm
    simp only [hk, bne_self_eq_false, Bool.false_or] at this
    have := List.all_eq_true.1 this _ hm'
    simpa [hk', List.getElem?_length] using this
  · intro i hi k k' j' r r' X a hk hk' hm hm' hX hT
    have := List.all_eq_true.1 (List.all_eq_true.1 h4 i (List.mem_range.2 hi)) _ hm
    simp only [hk, bne_self_eq_false, Bool.false_or] at this
    have := List.all_eq_true.1 this _ hm'
    simp [hk', hX, isToken_iff.2 hT] at this

theorem LRTable.starts_append {β l : List Nat} {t : Nat} :
    t ∈ T.starts P (β ++ l) ↔ t ∈ T.starts P β ∨ β.all (T.vanishes P) = true ∧ t ∈ T.starts P l := by
  induction β with
  | nil => simp [LRTable.starts]
  | cons Y β ih =>
    simp only [List.cons_append, LRTable.starts, List.mem_append, List.all_cons, Bool.and_eq_true]
    cases hv : T.vanishes P Y with
    | true => simp only [if_true, ih]; tauto
    | false => simp

theorem LRTable.mem_ahead {ρ : List Nat} {a b : Option Nat} :
    b ∈ T.ahead P ρ a ↔ (∃ t ∈ T.starts P ρ, b = some t) ∨ ρ.all (T.vanishes P) = true ∧ b = a := by
  unfold LRTable.ahead
  rw [List.mem_append, List.mem_map]
  constructor
  · rintro (⟨t, h, rfl⟩ | h)
    · exact .inl ⟨t, h, rfl⟩
    · split at h
      · exact .inr ⟨‹_›, List.mem_singleton.1 h⟩
      · cases h
  · rintro (⟨t, h, rfl⟩ | ⟨h, rfl⟩)
    · exact .inl ⟨t, h, rfl⟩
    · rw [if_pos h]; exact .inr (List.mem_singleton.2 rfl)

variable (h : LRTableOK P S T)
include h

theorem LRTableOK.ahead_step {φ ψ : List Nat} (hs : RStep P φ ψ) {a b : Option Nat} (hb : b ∈ T.ahead P ψ a) : b ∈ T.ahead P φ a := by
  cases hs with
  | @mk A β γ x hr _ =>
    obtain ⟨h1, h2⟩ := h.first A β hr
    rw [LRTable.mem_ahead] at hb ⊢
    rw [List.append_assoc] at hb
    have key : ∀ t, t ∈ T.starts P (β ++ x) → t ∈ T.starts P (A :: x) := by
      intro t ht
      rw [LRTable.starts, List.mem_append]
      rcases LRTable.starts_append.1 ht with ht | ⟨hv, ht⟩
      · exact .inl (h1 t ht)
      · rw [if_pos (h2 hv)]; exact .inr ht
    rcases hb with ⟨t, ht, rfl⟩ | ⟨hv, rfl⟩
    · refine .inl ⟨t, ?_, rfl⟩
      rcases LRTable.starts_append.1 ht with ht | ⟨hv, ht⟩
      · exact LRTable.starts_append.2 (.inl ht)
      · exact LRTable.starts_append.2 (.inr ⟨hv, key t ht⟩)
    · refine .inr ⟨?_, rfl⟩
      simp only [List.all_append, List.all_cons, Bool.and_eq_true] at hv ⊢
      exact ⟨hv.1, h2 hv.2.1, hv.2.2⟩

theorem LRTableOK.head {ρ x y : List Nat} (hs : RSteps P (ρ ++ y) x) (hx : Toks P x) (hy : Toks P y) : x.head? ∈ T.ahead P ρ y.head? := by
  obtain ⟨x0, rfl, hs'⟩ := RSteps.suffix hs hy
  clear hy hs
  induction hs' using Relation.ReflTransGen.head_induction_on with
  | refl =>
    rw [LRTable.mem_ahead]
    cases x0 with
    | nil => exact .inr ⟨rfl, rfl⟩
    | cons t x0 =>
      refine .inl ⟨t, ?_, rfl⟩
      have := isToken_iff.2 (hx t (by simp))
      simp [LRTable.starts, LRTable.firstOf, this]
  | head h1 _ ih => exact h.ahead_step h1 ih

/-- The state reached. -/
def LRTable.run (T : LRTable) : Nat → List Nat → Option Nat
  | i, [] => some i
  | i, X :: γ => match T.next i X with
    | none => none
    | some i' => T.run i' γ

omit h in
theorem LRTable.run_append {i : Nat} {γ δ : List Nat} : T.run i (γ ++ δ) = (T.run i γ).bind fun i' => T.run i' δ := by
  induction γ generalizing i with
  | nil => rfl
  | cons X γ ih =>
    simp only [List.cons_append, LRTable.run]
    cases T.next i X with
    | none => rfl
    | some i' => exact ih

/-- Transitions along a part of a rule. -/
theorem LRTableOK.along {k : Nat} {A : Nat} {a : Option Nat} {α η : List Nat} {i j : Nat} {μ : List Nat} (hk : P[k]? = some (A, μ ++ α ++ η))
    (hj : μ.length = j) (hi : i < T.items.length) (hm : (k, j, a) ∈ T.itemsAt i) :
    ∃ i', T.run i α = some i' ∧ i' < T.items.length ∧ (k, j + α.length, a) ∈ T.itemsAt i' := by
  induction α generalizing i j μ with
  | nil => exact ⟨i, rfl, hi, hm⟩
  | cons X α ih =>
    obtain ⟨_, i', h1, h2, h3⟩ := h.closed i hi k j a hm _ X hk (by simp [← hj])
    obtain ⟨i'', h4, h5, h6⟩ := ih (μ := μ ++ [X]) (j := j + 1) (by simpa using hk) (by simp [hj]) h2 h3
    refine ⟨i'', by simp only [LRTable.run, h1]; exact h4, h5, ?_⟩
    rw [List.length_cons, Nat.add_comm α.length, ← Nat.add_assoc]
    exact h6

theorem LRTableOK.valid {φ : List Nat} (hφ : RForm P S φ) : ∀ {γ ρ x : List Nat} {A : Nat}, φ = γ ++ A :: ρ → ¬ UTerminal P A →
    RSteps P ρ x → Toks P x → ∃ i, T.run 0 γ = some i ∧ i < T.items.length ∧ ∀ k β, P[k]? = some (A, β) → (k, 0, x.head?) ∈ T.itemsAt i := by
  unfold RForm at hφ
  induction hφ with
  | refl =>
    intro γ ρ x A e hA hs hx
    match γ, e with
    | [], e =>
      simp only [List.nil_append, List.cons.injEq] at e
      obtain ⟨rfl, rfl⟩ := e
      have := RSteps.toks hs (fun t ht => (List.not_mem_nil ht).elim)
      subst this
      exact ⟨0, rfl, h.pos, h.start⟩
    | _ :: γ, e =>
      simp at e
  | tail h1 h2 ih =>
    intro γ ρ x A e hA hs hx
    cases h2 with
    | @mk C μ γ1 x1 hr hx1 =>
      have hnC : ¬ UTerminal P C := fun h => h _ hr rfl
      rw [List.append_assoc] at e
      -- within the rule that was applied last
      have within : ∀ {a μ2 : List Nat}, μ = a ++ A :: μ2 → ρ = μ2 ++ x1 →
          ∃ i, T.run 0 (γ1 ++ a) = some i ∧ i < T.items.length ∧ ∀ k β, P[k]? = some (A, β) → (k, 0, x.head?) ∈ T.itemsAt i := by
        rintro a μ2 rfl rfl
        obtain ⟨k, hk⟩ := List.getElem?_of_mem hr
        obtain ⟨i, i1, i2, i3⟩ := ih rfl hnC .refl hx1
        obtain ⟨i', j1, j2, j3⟩ := h.along (μ := []) (α := a) (η := A :: μ2) (by simpa using hk) rfl i2 (i3 k _ hk)
        refine ⟨i', by rw [LRTable.run_append, i1]; exact j1, j2, fun k' β hk' => ?_⟩
        refine (h.closed i' j2 k _ _ j3 _ A hk (by simp)).1 _ ?_ k' β hk'
        rw [List.length_nil, Nat.zero_add, show (a ++ A :: μ2).drop (a.length + 1) = μ2 by
          rw [List.drop_append, List.drop_eq_nil_of_le (by omega)]; simp]
        exact h.head hs hx hx1
      rcases List.append_eq_append_iff.1 e with ⟨a, e1, e2⟩ | ⟨a, e1, e2⟩
      · subst e1
        rcases List.append_eq_append_iff.1 e2 with ⟨b, e3, e4⟩ | ⟨b, e3, e4⟩
        · exact absurd (hx1 A (by rw [e4]; simp)) hA
        · cases b with
          | nil => exact absurd (hx1 A (by rw [← (show A :: ρ = x1 by simpa using e4)]; simp)) hA
          | cons A' μ2 =>
            simp only [List.cons_append, List.cons.injEq] at e4
            obtain ⟨rfl, rfl⟩ := e4
            exact within e3 rfl
      · cases a with
        | nil =>
          simp only [List.nil_append, List.append_nil] at e1 e2
          subst e1
          cases μ with
          | nil => exact absurd (hx1 A (by rw [← (show A :: ρ = x1 by simpa using e2)]; simp)) hA
          | cons A' μ2 =>
            simp only [List.cons_append, List.cons.injEq] at e2
            obtain ⟨rfl, rfl⟩ := e2
            simpa using within (a := []) rfl rfl
        | cons A' ρ1 =>
          simp only [List.cons_append, List.cons.injEq] at e2
          obtain ⟨rfl, rfl⟩ := e2
          subst e1
          exact ih (ρ := ρ1 ++ C :: x1) (by simp) hA (.head (by rw [← List.append_assoc]; exact .mk hr hx1) hs) hx

/-- The items before a symbol. -/
theorem LRTableOK.before {γ x : List Nat} {A : Nat} (hf : RForm P S (γ ++ A :: x)) (hx : Toks P x) {k : Nat} {α η : List Nat}
    (hk : P[k]? = some (A, α ++ η)) : ∃ i, T.run 0 (γ ++ α) = some i ∧ i < T.items.length ∧ (k, α.length, x.head?) ∈ T.itemsAt i := by
  obtain ⟨i, i1, i2, i3⟩ := h.valid hf rfl (fun h => h _ (List.mem_of_getElem? hk) rfl) .refl hx
  obtain ⟨i', j1, j2, j3⟩ := h.along (μ := []) (α := α) (η := η) hk rfl i2 (i3 k _ hk)
  exact ⟨i', by rw [LRTable.run_append, i1]; exact j1, j2, by simpa using j3⟩

/-- A token cannot be read at the end of a rule that is followed by it. -/
theorem LRTableOK.no_shift {γ δ β β' x y z : List Nat} {A B t : Nat} (hx : Toks P x) (hy : Toks P y)
    (h1 : RForm P S (γ ++ A :: x)) (hr : (A, β) ∈ P) (h2 : RForm P S (δ ++ B :: y)) (hr' : (B, β') ∈ P) (ht : UTerminal P t)
    (hxt : x.head? = some t) (e : δ ++ β' = γ ++ β ++ t :: z) : False := by
  obtain ⟨k, hk⟩ := List.getElem?_of_mem hr
  obtain ⟨i, i1, i2, i3⟩ := h.before h1 hx (α := β) (η := []) (by simpa using hk)
  rw [hxt] at i3
  obtain ⟨γ', C, α, η, x', k1, k2, k3, k4⟩ : ∃ γ' C α η x', RForm P S (γ' ++ C :: x') ∧ Toks P x' ∧ (C, α ++ t :: η) ∈ P ∧ γ ++ β = γ' ++ α := by
    rcases List.append_eq_append_iff.1 e with ⟨a, e1, e2⟩ | ⟨a, e1, e2⟩
    · subst e2
      exact ⟨δ, B, a, z, y, h2, hy, hr', e1⟩
    · cases a with
      | nil =>
        simp only [List.nil_append, List.append_nil] at e1 e2
        subst e2
        exact ⟨δ, B, [], z, y, h2, hy, hr', by simp [e1]⟩
      | cons t' ρ =>
        simp only [List.cons_append, List.cons.injEq] at e2
        obtain ⟨rfl, _⟩ := e2
        subst e1
        exact introduced h2 (π := γ ++ β) (ρ := ρ) (by simp) (fun h => h _ hr' rfl) hy
  obtain ⟨k', hk'⟩ := List.getElem?_of_mem k3
  obtain ⟨i', j1, j2, j3⟩ := h.before k1 k2 (α := α) (η := t :: η) hk'
  rw [← k4, i1, Option.some.injEq] at j1
  subst j1
  exact h.shift i i2 k k' α.length _ _ t _ hk hk' i3 j3 (by simp) ht

/-- Two rules that end at the same position before the same token. -/
theorem LRTableOK.same {γ δ β β' x y : List Nat} {A B : Nat} (hx : Toks P x) (hy : Toks P y) (h1 : RForm P S (γ ++ A :: x)) (hr : (A, β) ∈ P)
    (h2 : RForm P S (δ ++ B :: y)) (hr' : (B, β') ∈ P) (e : γ ++ β = δ ++ β') (hh : y.head? = x.head?) : γ = δ ∧ A = B := by
  obtain ⟨k, hk⟩ := List.getElem?_of_mem hr
  obtain ⟨k', hk'⟩ := List.getElem?_of_mem hr'
  obtain ⟨i, i1, i2, i3⟩ := h.before h1 hx (α := β) (η := []) (by simpa using hk)
  obtain ⟨i', j1, j2, j3⟩ := h.before h2 hy (α := β') (η := []) (by simpa using hk')
  rw [← e, i1, Option.some.injEq] at j1
  subst j1
  rw [hh] at j3
  have := h.reduce i i2 k k' _ _ _ hk hk' i3 j3
  simp only [Prod.mk.injEq] at this
  obtain ⟨rfl, rfl⟩ := this
  exact ⟨List.append_cancel_right e, rfl⟩

/-- A grammar that passes the check is LR(1). -/
theorem LRTableOK.lr1 : LR1 P S := by
  intro γ δ β β' A B x y z hx hy hz h1 hr h2 hr' e hh
  have e : (γ ++ β) ++ z = (δ ++ β') ++ y := e
  rcases List.append_eq_append_iff.1 e with ⟨a, e1, e2⟩ | ⟨a, e1, e2⟩
  · cases a with
    | nil =>
      simp only [List.nil_append, List.append_nil] at e1 e2
      subst e2
      obtain ⟨rfl, rfl⟩ := h.same hx hy h1 hr h2 hr' e1.symm hh
      rfl
    | cons t a =>
      subst e2
      exact (h.no_shift hx hy h1 hr h2 hr' (hz t (by simp)) (by rw [← hh]; rfl) e1).elim
  · cases a with
    | nil =>
      simp only [List.nil_append, List.append_nil] at e1 e2
      subst e2
      obtain ⟨rfl, rfl⟩ := h.same hx hy h1 hr h2 hr' e1 hh
      rfl
    | cons t a =>
      subst e2
      exact (h.no_shift hy hx h2 hr' h1 hr (hy t (by simp)) rfl e1).elim

end Gearley.Spec
