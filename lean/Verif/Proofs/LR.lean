import Verif.Spec.LR
import Mathlib.Data.List.Infix
import Mathlib.Data.Finset.Card
import Mathlib.Algebra.BigOperators.Group.List.Basic

/-!
# Rightmost derivations of LR(1) grammars
-/

namespace Gearley.Spec
variable {P : URules} {S : Nat}

/-- All symbols are tokens. -/
def Toks (P : URules) (x : List Nat) : Prop := ∀ t ∈ x, UTerminal P t

theorem Toks.append {x y : List Nat} (hx : Toks P x) (hy : Toks P y) : Toks P (x ++ y) := by
  intro t ht
  rcases List.mem_append.1 ht with h | h
  · exact hx t h
  · exact hy t h

theorem Toks.left {x y : List Nat} (h : Toks P (x ++ y)) : Toks P x := fun t ht => h t (List.mem_append_left _ ht)
theorem Toks.right {x y : List Nat} (h : Toks P (x ++ y)) : Toks P y := fun t ht => h t (List.mem_append_right _ ht)

theorem RStep.ctx {φ ψ : List Nat} (h : RStep P φ ψ) (γ : List Nat) {x : List Nat} (hx : Toks P x) :
    RStep P (γ ++ φ ++ x) (γ ++ ψ ++ x) := by
  cases h with
  | @mk A β γ' x' hr hx' =>
    have := RStep.mk (γ := γ ++ γ') (x := x' ++ x) hr (Toks.append hx' hx)
    simpa [List.append_assoc] using this

theorem RSteps.ctx {φ ψ : List Nat} (h : RSteps P φ ψ) (γ : List Nat) {x : List Nat} (hx : Toks P x) :
    RSteps P (γ ++ φ ++ x) (γ ++ ψ ++ x) := by
  induction h with
  | refl => exact .refl
  | tail _ h ih => exact ih.tail (h.ctx γ hx)

theorem RSteps.left {φ ψ : List Nat} (h : RSteps P φ ψ) (γ : List Nat) : RSteps P (γ ++ φ) (γ ++ ψ) := by
  simpa using h.ctx γ (x := []) (by intro t ht; cases ht)

theorem RSteps.right {φ ψ : List Nat} (h : RSteps P φ ψ) {x : List Nat} (hx : Toks P x) : RSteps P (φ ++ x) (ψ ++ x) := by
  simpa using h.ctx [] hx

/-- Tokens at the end stay. -/
theorem RStep.suffix {φ0 ψ z : List Nat} (h : RStep P (φ0 ++ z) ψ) (hz : Toks P z) : ∃ ψ0, ψ = ψ0 ++ z ∧ RStep P φ0 ψ0 := by
  generalize hφ : φ0 ++ z = φ at h
  cases h with
  | @mk A β γ x hr hx =>
    rcases List.append_eq_append_iff.1 hφ with ⟨a, h1, h2⟩ | ⟨a, h1, h2⟩
    · -- `z` begins before `A`
      exfalso
      exact hz A (by rw [h2]; simp) _ hr rfl
    · cases a with
      | nil =>
        exfalso
        simp only [List.nil_append] at h2
        exact hz A (by rw [← h2]; simp) _ hr rfl
      | cons B a =>
        simp only [List.cons_append, List.cons.injEq] at h2
        obtain ⟨rfl, rfl⟩ := h2
        refine ⟨γ ++ β ++ a, by simp, ?_⟩
        rw [h1]
        exact .mk hr (Toks.left hx)

theorem RSteps.suffix {φ0 ψ z : List Nat} (h : RSteps P (φ0 ++ z) ψ) (hz : Toks P z) : ∃ ψ0, ψ = ψ0 ++ z ∧ RSteps P φ0 ψ0 := by
  induction h with
  | refl => exact ⟨φ0, rfl, .refl⟩
  | tail _ h ih =>
    obtain ⟨ψ0, rfl, h1⟩ := ih
    obtain ⟨ψ1, rfl, h2⟩ := h.suffix hz
    exact ⟨ψ1, rfl, h1.tail h2⟩

theorem RSteps.toks {φ ψ : List Nat} (h : RSteps P φ ψ) (hφ : Toks P φ) : ψ = φ := by
  obtain ⟨ψ0, rfl, h1⟩ := RSteps.suffix (φ0 := []) (z := φ) (by simpa using h) hφ
  suffices ∀ ψ0, RSteps P [] ψ0 → ψ0 = [] by rw [this _ h1]; rfl
  intro ψ0 h
  induction h with
  | refl => rfl
  | tail _ h ih =>
    subst ih
    generalize hn : ([] : List Nat) = φ at h
    cases h with
    | mk => simp at hn

/-- No rule is empty. -/
def NoEmpty (P : URules) : Prop := ∀ r ∈ P, r.2 ≠ []

/-- A derivation from two strings one after the other: the second is derived first. -/
theorem RSteps.split {φ ψ χ : List Nat} (h : RSteps P (φ ++ ψ) χ) :
    (∃ ψ', χ = φ ++ ψ' ∧ RSteps P ψ ψ') ∨ ∃ φ' ψ', χ = φ' ++ ψ' ∧ Toks P ψ' ∧ RSteps P φ φ' ∧ RSteps P ψ ψ' := by
  induction h with
  | refl => exact .inl ⟨ψ, rfl, .refl⟩
  | tail _ hs ih =>
    rcases ih with ⟨ψ', rfl, h1⟩ | ⟨φ', ψ', rfl, h1, h2, h3⟩
    · generalize hφ : φ ++ ψ' = χ' at hs
      cases hs with
      | @mk A β γ x hr hx =>
        rcases List.append_eq_append_iff.1 hφ with ⟨a, e1, e2⟩ | ⟨a, e1, e2⟩
        · -- `A` is in the second
          subst e1 e2
          exact .inl ⟨a ++ β ++ x, by simp, h1.tail (.mk hr hx)⟩
        · cases a with
          | nil =>
            simp only [List.append_nil, List.nil_append] at e1 e2
            subst e1
            refine .inl ⟨β ++ x, by simp, h1.tail ?_⟩
            rw [← e2]
            exact RStep.mk (γ := []) hr hx
          | cons B a =>
            simp only [List.cons_append, List.cons.injEq] at e2
            obtain ⟨rfl, rfl⟩ := e2
            refine .inr ⟨γ ++ β ++ a, ψ', by simp, Toks.right hx, .single ?_, h1⟩
            rw [e1]
            exact .mk hr (Toks.left hx)
    · obtain ⟨φ'', rfl, h4⟩ := hs.suffix h1
      exact .inr ⟨φ'', ψ', rfl, h1, h2.tail h4, h3⟩

theorem RSteps.split_toks {φ ψ t : List Nat} (h : RSteps P (φ ++ ψ) t) (ht : Toks P t) :
    ∃ t₁ t₂, t = t₁ ++ t₂ ∧ RSteps P φ t₁ ∧ RSteps P ψ t₂ := by
  rcases h.split with ⟨ψ', rfl, h1⟩ | ⟨φ', ψ', rfl, _, h2, h3⟩
  · exact ⟨φ, ψ', rfl, .refl, h1⟩
  · exact ⟨φ', ψ', rfl, h2, h3⟩

/-- If tokens at the end are all that remains, then the rest derives the empty string. -/
theorem RSteps.vanish {μ s : List Nat} (h : RSteps P (μ ++ s) s) (hs : Toks P s) : RSteps P μ [] := by
  obtain ⟨ψ0, h1, h2⟩ := h.suffix hs
  have : ψ0 = [] := by
    have := congrArg List.length h1
    simp at this
    exact this
  rwa [this] at h2

/-- All symbols derive the empty string. -/
def Nul (P : URules) (φ : List Nat) : Prop := ∀ s ∈ φ, RSteps P [s] []

theorem Nul.steps : ∀ {φ : List Nat}, Nul P φ → RSteps P φ []
  | [], _ => .refl
  | s :: φ, h => by
    have h1 : RSteps P φ [] := Nul.steps fun t ht => h t (List.mem_cons_of_mem _ ht)
    have h2 := h1.left [s]
    exact h2.trans (h s List.mem_cons_self)

theorem Nul.of_steps : ∀ {φ : List Nat}, RSteps P φ [] → Nul P φ
  | [], _ => fun s hs => (List.not_mem_nil hs).elim
  | s :: φ, h => by
    obtain ⟨t₁, t₂, h1, h2, h3⟩ := RSteps.split_toks (φ := [s]) (ψ := φ) h (fun t ht => (List.not_mem_nil ht).elim)
    obtain ⟨rfl, rfl⟩ := List.append_eq_nil_iff.1 h1.symm
    intro t ht
    rcases List.mem_cons.1 ht with rfl | ht
    · exact h2
    · exact Nul.of_steps h3 t ht

/-- If a string derives tokens that are not empty, so does one of its symbols. -/
theorem RSteps.live {y : List Nat} (hy : y ≠ []) (ht : Toks P y) : ∀ {φ : List Nat}, RSteps P φ y →
    ∃ φ₁ B φ₂ y', φ = φ₁ ++ B :: φ₂ ∧ y' ≠ [] ∧ Toks P y' ∧ RSteps P [B] y'
  | [], h => absurd (h.toks (by intro t ht; cases ht)) hy
  | s :: φ, h => by
    obtain ⟨t₁, t₂, rfl, h2, h3⟩ := RSteps.split_toks (φ := [s]) (ψ := φ) h ht
    cases t₁ with
    | cons a l => exact ⟨[], s, φ, _, rfl, by simp, Toks.left ht, h2⟩
    | nil =>
      obtain ⟨φ₁, B, φ₂, y', rfl, h4⟩ := RSteps.live (by simpa using hy) (by simpa using ht) h3
      exact ⟨s :: φ₁, B, φ₂, y', rfl, h4⟩

/-- A string that overlaps itself after a nullable one is nullable. -/
theorem Nul.overlap {ν μ : List Nat} (hμ : Nul P μ) (hne : μ ≠ []) (hl : ν.length = μ.length) :
    ∀ (k : Nat) {β : List Nat}, β.length ≤ k → ν ++ β = β ++ μ → Nul P β
  | 0, β, hk, _ => by
    have : β = [] := List.length_eq_zero_iff.1 (by omega)
    subst this
    exact fun s hs => (List.not_mem_nil hs).elim
  | k + 1, β, hk, e => by
    have hpos := List.length_pos_iff.2 hne
    by_cases h : β.length ≤ μ.length
    · obtain ⟨μ', rfl⟩ : β <:+ μ := List.suffix_of_suffix_length_le (l₃ := ν ++ β) (List.suffix_append _ _) (e ▸ List.suffix_append _ _) h
      exact fun s hs => hμ s (List.mem_append_right _ hs)
    · obtain ⟨β₂, rfl⟩ : ν <+: β := List.prefix_of_prefix_length_le (l₃ := ν ++ β) (List.prefix_append _ _) (e ▸ List.prefix_append _ _) (by omega)
      have e' : ν ++ β₂ = β₂ ++ μ := by
        rw [List.append_assoc] at e
        exact List.append_cancel_left e
      have := Nul.overlap hμ hne hl k (β := β₂) (by simp at hk; omega) e'
      rw [e']
      intro s hs
      rcases List.mem_append.1 hs with hs | hs
      · exact this s hs
      · exact hμ s hs

/-- The grammar is LR(1), and the start symbol is used nowhere. -/
structure LRGrammar (P : URules) (S : Nat) : Prop where
  lr : LR1 P S
  start : ∀ r ∈ P, S ∉ r.2

variable (hG : LRGrammar P S)
include hG

/-- A form before the last one is unique. -/
theorem LRGrammar.pred {φ φ' t : List Nat} (h : RForm P S φ) (h1 : RStep P φ t) (h' : RForm P S φ') (h1' : RStep P φ' t) : φ = φ' := by
  cases h1 with
  | @mk A β γ x hr hx =>
    generalize ht : γ ++ β ++ x = t at h1'
    cases h1' with
    | @mk B β' δ y hr' hy => exact hG.lr γ δ β β' A B x y x hx hy hx h hr h' hr' ht rfl

omit hG in
theorem form_pred {φ : List Nat} (h : RForm P S φ) : φ = [S] ∨ ∃ φ', RForm P S φ' ∧ RStep P φ' φ := by
  cases h with
  | refl => exact .inl rfl
  | tail h h1 => exact .inr ⟨_, h, h1⟩

/-- The start symbol is only at the start. -/
theorem LRGrammar.only {φ : List Nat} (h : RForm P S φ) (hS : S ∈ φ) : φ = [S] := by
  induction h with
  | refl => rfl
  | tail _ hs ih =>
    exfalso
    cases hs with
    | @mk A β γ x hr hx =>
      have hSβ := hG.start _ hr
      have : S ∈ γ ++ A :: x := by
        simp only [List.mem_append, List.mem_cons] at hS ⊢
        tauto
      have e := ih this
      have hl := congrArg List.length e
      simp only [List.length_append, List.length_cons, List.length_nil] at hl
      have e1 : γ = [] := List.length_eq_zero_iff.1 (by omega)
      have e2 : x = [] := List.length_eq_zero_iff.1 (by omega)
      subst e1 e2
      simp only [List.nil_append, List.append_nil] at hS
      exact hSβ hS

/-- The parser reduces in the same way whatever comes after the next token. -/
theorem LRGrammar.det {φ ψ z z' : List Nat} (h : RForm P S (φ ++ z)) (h1 : RSteps P φ ψ) (h2 : RForm P S (ψ ++ z'))
    (hz : Toks P z) (hz' : Toks P z') (hh : z'.head? = z.head?) : RForm P S (φ ++ z') := by
  induction h1 with
  | refl => exact h2
  | @tail ψ' ψ h1 hs ih =>
    apply ih
    have hform : RForm P S (ψ' ++ z) := h.trans (RSteps.right h1 hz)
    cases hs with
    | @mk A β γ x hr hx =>
      rcases form_pred h2 with h3 | ⟨φ', h3, h4⟩
      · exfalso
        have hS : S ∈ γ ++ β ++ x ++ z' := by rw [h3]; simp
        have hSβ := hG.start _ hr
        have hzz : S ∈ z' → S ∈ z := by
          intro hm
          have : z' = [S] := by
            have hl := congrArg List.length h3
            have := List.length_pos_of_mem hm
            simp only [List.length_append, List.length_cons, List.length_nil] at hl
            have e1 : γ ++ β ++ x = [] := List.length_eq_zero_iff.1 (by simp only [List.length_append]; omega)
            rwa [e1] at h3
          rw [this] at hh
          exact List.mem_of_head? hh.symm
        have hm : S ∈ γ ++ A :: x ++ z := by
          simp only [List.mem_append, List.mem_cons] at hS ⊢
          tauto
        have e := hG.only hform hm
        have hl := congrArg List.length e
        simp only [List.length_append, List.length_cons, List.length_nil] at hl
        have e1 : γ = [] := List.length_eq_zero_iff.1 (by omega)
        have e2 : x = [] := List.length_eq_zero_iff.1 (by omega)
        have e3 : z = [] := List.length_eq_zero_iff.1 (by omega)
        subst e1 e2 e3
        simp only [List.nil_append, List.append_nil, List.mem_append] at hS
        rcases hS with hS | hS
        · exact hSβ hS
        · exact List.not_mem_nil (hzz hS)
      · generalize ht : γ ++ β ++ x ++ z' = t at h4
        cases h4 with
        | @mk B β' δ y hr' hy =>
          have := hG.lr γ δ β β' A B (x ++ z) y (x ++ z') (Toks.append hx hz) hy (Toks.append hx hz') (by simpa using hform) hr h3 hr'
            (by simpa using ht) (by cases x <;> simp [hh])
          have e : γ ++ A :: x ++ z' = γ ++ A :: (x ++ z') := by simp
          rw [e, this]
          exact h3

/-- Forms from which the same form is derived. -/
theorem LRGrammar.total {φ φ' t : List Nat} (h : RForm P S φ) (h1 : RSteps P φ t) (h' : RForm P S φ') (h1' : RSteps P φ' t) :
    RSteps P φ φ' ∨ RSteps P φ' φ := by
  induction h1 with
  | refl => exact .inr h1'
  | @tail b t h1 hs ih =>
    cases h1' with
    | refl => exact .inl (h1.tail hs)
    | @tail b' _ h2 hs' =>
      have := hG.pred (h.trans h1) hs (h'.trans h2) hs'
      subst this
      exact ih h2

/-- A form from which the end of a derivation is derived comes before it, or is part of it. -/
theorem LRGrammar.between {γ β v z θ : List Nat} (hz : Toks P z) (h : RForm P S (γ ++ β ++ z)) (h1 : RSteps P β v) (hθ : RForm P S θ)
    (h2 : RSteps P θ (γ ++ v ++ z)) : RSteps P θ (γ ++ β ++ z) ∨ ∃ ψ, θ = γ ++ ψ ++ z ∧ RSteps P β ψ ∧ RSteps P ψ v := by
  induction h1 with
  | refl => exact .inl h2
  | @tail b t h1 hs ih =>
    generalize ht : γ ++ t ++ z = t' at h2
    cases h2 with
    | refl => exact .inr ⟨t, ht.symm, h1.tail hs, .refl⟩
    | @tail b' _ h3 hs' =>
      subst ht
      have := hG.pred (h.trans (RSteps.ctx h1 γ hz)) (hs.ctx γ hz) (hθ.trans h3) hs'
      subst this
      rcases ih h3 with h4 | ⟨ψ, h4, h5, h6⟩
      · exact .inl h4
      · exact .inr ⟨ψ, h4, h5, h6.tail hs⟩

/-! ### The number of steps -/

omit hG in
/-- A form after `k` steps. -/
inductive RAt (P : URules) (S : Nat) : Nat → List Nat → Prop
  | zero : RAt P S 0 [S]
  | succ {k : Nat} {φ ψ : List Nat} : RAt P S k φ → RStep P φ ψ → RAt P S (k + 1) ψ

omit hG in
theorem RAt.form {k : Nat} {φ : List Nat} (h : RAt P S k φ) : RForm P S φ := by
  induction h with
  | zero => exact .refl
  | succ _ hs ih => exact ih.tail hs

omit hG in
theorem RAt.of_form {φ : List Nat} (h : RForm P S φ) : ∃ k, RAt P S k φ := by
  induction h with
  | refl => exact ⟨0, .zero⟩
  | tail _ hs ih =>
    obtain ⟨k, hk⟩ := ih
    exact ⟨k + 1, hk.succ hs⟩

omit hG in
theorem RAt.deeper {k : Nat} {φ ψ : List Nat} (h : RAt P S k φ) (h1 : RSteps P φ ψ) : ∃ j, RAt P S j ψ ∧ (k < j ∨ k = j ∧ φ = ψ) := by
  induction h1 with
  | refl => exact ⟨k, h, .inr ⟨rfl, rfl⟩⟩
  | tail _ hs ih =>
    obtain ⟨j, hj, hlt⟩ := ih
    exact ⟨j + 1, hj.succ hs, .inl (by omega)⟩

theorem LRGrammar.no_step {φ : List Nat} (h : RForm P S φ) : ¬ RStep P φ [S] := by
  intro hs
  generalize ht : [S] = t at hs
  cases hs with
  | @mk A β γ x hr hx =>
    have hS : S ∈ γ ++ β ++ x := by rw [← ht]; simp
    have hSβ := hG.start _ hr
    have hm : S ∈ γ ++ A :: x := by
      simp only [List.mem_append, List.mem_cons] at hS ⊢
      tauto
    have e := hG.only h hm
    have hl := congrArg List.length e
    simp only [List.length_append, List.length_cons, List.length_nil] at hl
    have e1 : γ = [] := List.length_eq_zero_iff.1 (by omega)
    have e2 : x = [] := List.length_eq_zero_iff.1 (by omega)
    subst e1 e2
    simp only [List.nil_append, List.append_nil] at hS
    exact hSβ hS

/-- The number of steps is unique. -/
theorem LRGrammar.at_unique {k k' : Nat} {φ : List Nat} (h : RAt P S k φ) (h' : RAt P S k' φ) : k = k' := by
  induction h generalizing k' with
  | zero =>
    generalize ht : [S] = t at h'
    cases h' with
    | zero => rfl
    | succ h1 hs => subst ht; exact absurd hs (hG.no_step h1.form)
  | @succ k φ ψ h1 hs ih =>
    cases h' with
    | zero => exact absurd hs (hG.no_step h1.form)
    | succ h1' hs' =>
      have := hG.pred h1.form hs h1'.form hs'
      subst this
      rw [ih h1']

/-- Derivations do not return. -/
theorem LRGrammar.cycle {φ ψ : List Nat} (h : RForm P S φ) (h1 : RSteps P φ ψ) (h2 : RSteps P ψ φ) : φ = ψ := by
  obtain ⟨k, hk⟩ := RAt.of_form h
  obtain ⟨j, hj, h3⟩ := hk.deeper h1
  obtain ⟨i, hi, h4⟩ := hj.deeper h2
  have := hG.at_unique hk hi
  rcases h3 with h3 | h3
  · omega
  · exact h3.2

/-- Only finitely many forms come before a form. -/
theorem LRGrammar.finite {t : List Nat} (f : Nat → List Nat) (hf : ∀ i j, f i = f j → i = j) (h : ∀ i, RForm P S (f i))
    (h1 : ∀ i, RSteps P (f i) t) : False := by
  obtain ⟨D, hD⟩ := RAt.of_form ((h 0).trans (h1 0))
  have key : ∀ i, ∃ k ≤ D, RAt P S k (f i) := by
    intro i
    obtain ⟨k, hk⟩ := RAt.of_form (h i)
    obtain ⟨j, hj, h2⟩ := hk.deeper (h1 i)
    have := hG.at_unique hD hj
    exact ⟨k, by omega, hk⟩
  choose d hd1 hd2 using key
  have hinj : ∀ i j, d i = d j → i = j := by
    intro i j e
    apply hf
    rcases hG.total (h i) (h1 i) (h j) (h1 j) with h2 | h2
    · obtain ⟨k, hk, h3⟩ := (hd2 i).deeper h2
      have := hG.at_unique hk (hd2 j)
      rcases h3 with h3 | h3
      · omega
      · exact h3.2
    · obtain ⟨k, hk, h3⟩ := (hd2 j).deeper h2
      have := hG.at_unique hk (hd2 i)
      rcases h3 with h3 | h3
      · omega
      · exact h3.2.symm
  have := Finset.card_le_card_of_injOn (s := Finset.range (D + 2)) (t := Finset.range (D + 1)) d
    (fun i _ => by have := hd1 i; simp only [Finset.coe_range, Set.mem_Iio]; omega) (fun i _ j _ e => hinj i j e)
  simp at this

/-- The tokens at the end of a form are derived from its last symbols in one way. -/
theorem LRGrammar.unique {γ β z u u' v v' : List Nat} (hz : Toks P z) (h : RForm P S (γ ++ β ++ z)) (hu : RSteps P γ u) (hu' : RSteps P γ u')
    (hv : RSteps P β v) (hv' : RSteps P β v') (ht : Toks P v) (ht' : Toks P v') (hw : u ++ v = u' ++ v') : v = v' := by
  have key : ∀ {v v' : List Nat}, RSteps P β v → RSteps P β v' → Toks P v → Toks P v' →
      RSteps P (γ ++ v' ++ z) (γ ++ v ++ z) → v = v' := by
    intro v v' h1 h' hv hv' hs
    rcases hG.between hz h h1 (h.trans (h'.ctx γ hz)) hs with h4 | ⟨ψ, h4, _, h5⟩
    · have h5 := hG.cycle h (h'.ctx γ hz) h4
      have h6 : β = v' := List.append_cancel_left (List.append_cancel_right h5)
      subst h6
      exact h1.toks hv'
    · have : v' = ψ := List.append_cancel_left (List.append_cancel_right h4)
      subst this
      exact h5.toks hv'
  have f1 : RSteps P (γ ++ v ++ z) (u ++ v ++ z) := (hu.right ht).right hz
  have f2 : RSteps P (γ ++ v' ++ z) (u ++ v ++ z) := hw ▸ (hu'.right ht').right hz
  rcases hG.total (h.trans (hv.ctx γ hz)) f1 (h.trans (hv'.ctx γ hz)) f2 with h1 | h1
  · exact (key hv' hv ht' ht h1).symm
  · exact key hv hv' ht ht' h1

/-- Two readings of the same tokens that end with `β`, both followed by the same token: one comes before the other. -/
theorem LRGrammar.compare {γ₁ γ₂ β z₁ z₂ u₁ u₂ v₁ v₂ : List Nat} (hz₁ : Toks P z₁) (hz₂ : Toks P z₂) (hh : z₁.head? = z₂.head?)
    (h₁ : RForm P S (γ₁ ++ β ++ z₁)) (h₂ : RForm P S (γ₂ ++ β ++ z₂)) (hu₁ : RSteps P γ₁ u₁) (hu₂ : RSteps P γ₂ u₂)
    (hv₁ : RSteps P β v₁) (hv₂ : RSteps P β v₂) (ht₁ : Toks P v₁) (ht₂ : Toks P v₂) (hw : u₁ ++ v₁ = u₂ ++ v₂) :
    (RForm P S (γ₁ ++ β ++ z₂) ∧ RSteps P (γ₁ ++ β ++ z₂) (γ₂ ++ β ++ z₂)) ∨
      (RForm P S (γ₂ ++ β ++ z₁) ∧ RSteps P (γ₂ ++ β ++ z₁) (γ₁ ++ β ++ z₁)) := by
  have e1 : RSteps P (γ₁ ++ β) (u₁ ++ v₁) := (hv₁.left γ₁).trans (hu₁.right ht₁)
  have e2 : RSteps P (γ₂ ++ β) (u₁ ++ v₁) := hw ▸ (hv₂.left γ₂).trans (hu₂.right ht₂)
  have h3 : RForm P S (γ₁ ++ β ++ z₂) := hG.det h₁ e1 (h₂.trans (e2.right hz₂)) hz₁ hz₂ hh.symm
  rcases hG.total h3 (e1.right hz₂) h₂ (e2.right hz₂) with h4 | h4
  · exact .inl ⟨h3, h4⟩
  · obtain ⟨ψ0, h5, h6⟩ := h4.suffix hz₂
    have h5 := List.append_cancel_right h5
    subst h5
    exact .inr ⟨hG.det h₂ h6 h₁ hz₂ hz₁ hh, h6.right hz₁⟩

/-- One of two readings comes before the other, and differs from it by symbols that derive nothing. -/
theorem LRGrammar.overlap {γ γ' β μ z u u' v v' : List Nat} (hz : Toks P z) (hform : RForm P S (γ' ++ β ++ z)) (e : γ' ++ β = γ ++ β ++ μ)
    (hμ : RSteps P μ []) (hu : RSteps P γ u) (hu' : RSteps P γ' u') (hv : RSteps P β v) (hv' : RSteps P β v')
    (ht : Toks P v) (ht' : Toks P v') (hne : v' ≠ []) (hw : u ++ v = u' ++ v') : v = v' := by
  by_cases hμ0 : μ = []
  · subst hμ0
    have : γ' = γ := by simpa using e
    subst this
    exact hG.unique hz hform hu hu' hv hv' ht ht' hw
  have hl := congrArg List.length e
  simp only [List.length_append] at hl
  obtain ⟨ν, rfl⟩ : γ <+: γ' := by
    refine List.prefix_of_prefix_length_le (l₃ := γ' ++ β) ?_ (List.prefix_append _ _) (by omega)
    rw [e, List.append_assoc]
    exact List.prefix_append _ _
  simp only [List.length_append] at hl
  have hνμ : ν.length = μ.length := by omega
  have e : ν ++ β = β ++ μ := by
    simp only [List.append_assoc] at e
    exact List.append_cancel_left e
  have hNμ : Nul P μ := .of_steps hμ
  have hNβ : Nul P β := hNμ.overlap hμ0 hνμ _ (Nat.le_refl _) e
  by_cases hlen : β.length ≤ μ.length
  · -- then `β` derives nothing here
    exfalso
    obtain ⟨ν', rfl⟩ : β <+: ν := List.prefix_of_prefix_length_le (l₃ := ν ++ β) (e ▸ List.prefix_append _ _) (List.prefix_append _ _) (by omega)
    have hν' : RSteps P ν' [] := by
      refine Nul.steps fun s hs => hNμ s ?_
      have : ν' ++ β = μ := by
        simp only [List.append_assoc] at e
        exact List.append_cancel_left e
      rw [← this]
      exact List.mem_append_left _ hs
    have h1 : RSteps P (γ ++ (β ++ ν')) (u ++ v) := by
      have a1 := hν'.left (γ ++ β)
      have a2 := hv.left γ
      have a3 := hu.right ht
      simp only [List.append_nil, List.append_assoc] at a1 a2 a3 ⊢
      exact a1.trans (a2.trans a3)
    have := hG.unique (v := v') (v' := []) hz hform hu' h1 hv' hNβ.steps ht' (fun t ht => (List.not_mem_nil ht).elim) (by rw [List.append_nil, hw])
    exact hne this
  · obtain ⟨β₂, rfl⟩ : ν <+: β := List.prefix_of_prefix_length_le (l₃ := ν ++ β) (List.prefix_append _ _) (e ▸ List.prefix_append _ _) (by omega)
    have e' : ν ++ β₂ = β₂ ++ μ := by
      rw [List.append_assoc] at e
      exact List.append_cancel_left e
    obtain ⟨y₁, y₂, rfl, hy₁, hy₂⟩ := hv.split_toks ht
    have ht₁ : Toks P y₁ := Toks.left ht
    have ht₂ : Toks P y₂ := Toks.right ht
    have h1 : RSteps P (γ ++ ν) (u ++ y₁) := (hy₁.left γ).trans (hu.right ht₁)
    have h2 : RSteps P (ν ++ β₂) y₂ := by
      rw [e']
      have := hμ.left β₂
      rw [List.append_nil] at this
      exact this.trans hy₂
    have h3 : y₂ = v' := hG.unique hz hform h1 hu' h2 hv' ht₂ ht' (by rw [List.append_assoc]; exact hw)
    -- the first part derives nothing
    have h4 : y₁ = [] := by
      by_contra hy
      obtain ⟨ν₁, B, ν₂, y, rfl, hy', hty, hB⟩ := hy₁.live hy ht₁
      have hNB : ∀ s, s ∈ ν₁ ∨ s = B ∨ s ∈ ν₂ ∨ s ∈ β₂ → RSteps P [s] [] := by
        intro s hs
        refine hNβ s ?_
        simp only [List.mem_append, List.mem_cons]
        tauto
      have hform' : RForm P S ((γ ++ ν₁ ++ B :: (ν₂ ++ ν₁)) ++ (B :: (ν₂ ++ β₂)) ++ z) := by simpa using hform
      have n1 : RSteps P ν₁ [] := Nul.steps fun s hs => hNB s (.inl hs)
      have n2 : RSteps P (ν₂ ++ ν₁) [] := Nul.steps fun s hs => by
        rcases List.mem_append.1 hs with hs | hs
        · exact hNB s (.inr (.inr (.inl hs)))
        · exact hNB s (.inl hs)
      have n3 : RSteps P (ν₂ ++ β₂) [] := Nul.steps fun s hs => by
        rcases List.mem_append.1 hs with hs | hs
        · exact hNB s (.inr (.inr (.inl hs)))
        · exact hNB s (.inr (.inr (.inr hs)))
      have pre : ∀ {x : List Nat}, Toks P x → RSteps P [B] x → RSteps P (γ ++ ν₁ ++ B :: (ν₂ ++ ν₁)) (u ++ x) := by
        intro x hx hBx
        have a1 := n2.left (γ ++ ν₁ ++ [B])
        have a2 := hBx.left (γ ++ ν₁)
        have a3 := (n1.left γ).right hx
        have a4 := hu.right hx
        simp only [List.append_nil, List.append_assoc, List.cons_append, List.nil_append] at a1 a2 a3 a4 ⊢
        exact a1.trans (a2.trans (a3.trans a4))
      have suf : ∀ {x : List Nat}, RSteps P [B] x → RSteps P (B :: (ν₂ ++ β₂)) x := fun hBx => (n3.left [B]).trans hBx
      have hn : Toks P ([] : List Nat) := fun t ht => (List.not_mem_nil ht).elim
      have hB0 := hNB B (.inr (.inl rfl))
      exact hy' (hG.unique (v := y) (v' := []) hz hform' (pre hn hB0) (pre hty hB) (suf hB) (suf hB0) hty hn (by simp))
    rw [h4, List.nil_append, h3]

/-- The part `β` of a rule `A ::= β ρ`, where `ρ` begins with the next token, ends in one way. -/
theorem LRGrammar.medial {A : Nat} {β ρ γ₁ γ₂ x₁ x₂ s₁ s₂ u₁ u₂ v₁ v₂ : List Nat} (hr : (A, β ++ ρ) ∈ P) (hx₁ : Toks P x₁) (hx₂ : Toks P x₂)
    (h₁ : RForm P S (γ₁ ++ A :: x₁)) (h₂ : RForm P S (γ₂ ++ A :: x₂)) (hs₁ : RSteps P ρ s₁) (hs₂ : RSteps P ρ s₂) (t₁ : Toks P s₁)
    (t₂ : Toks P s₂) {c : Nat} (hc₁ : s₁.head? = some c) (hc₂ : s₂.head? = some c) (hu₁ : RSteps P γ₁ u₁) (hu₂ : RSteps P γ₂ u₂)
    (hv₁ : RSteps P β v₁) (hv₂ : RSteps P β v₂) (ht₁ : Toks P v₁) (ht₂ : Toks P v₂) (hn₁ : v₁ ≠ []) (hn₂ : v₂ ≠ [])
    (hw : u₁ ++ v₁ = u₂ ++ v₂) : v₁ = v₂ := by
  have head : ∀ {s x : List Nat}, s.head? = some c → (s ++ x).head? = some c := by
    intro s x h
    cases s with
    | nil => cases h
    | cons => exact h
  have form : ∀ {γ x s : List Nat}, Toks P x → RForm P S (γ ++ A :: x) → RSteps P ρ s → RForm P S (γ ++ β ++ (s ++ x)) := by
    intro γ x s hx h hs
    have h1 : RStep P (γ ++ A :: x) (γ ++ (β ++ ρ) ++ x) := .mk hr hx
    have h2 := hs.ctx (γ ++ β) hx
    simp only [List.append_assoc] at h1 h2 ⊢
    exact (h.tail h1).trans h2
  have uniq : ∀ {γ x s γ' u u' v v' : List Nat}, Toks P x → Toks P s → s.head? = some c → RForm P S (γ ++ A :: x) → RSteps P ρ s →
      RForm P S (γ' ++ β ++ (s ++ x)) → RSteps P (γ' ++ β ++ (s ++ x)) (γ ++ β ++ (s ++ x)) → RSteps P γ u → RSteps P γ' u' →
      RSteps P β v → RSteps P β v' → Toks P v → Toks P v' → v' ≠ [] → u ++ v = u' ++ v' → v = v' := by
    intro γ x s γ' u u' v v' hx ht hc h hs hθ h2 hu hu' hv hv' htv htv' hne hw
    have h1 : RStep P (γ ++ A :: x) (γ ++ β ++ ρ ++ x) := by simpa using RStep.mk (γ := γ) hr hx
    have key : ∃ ψ, γ' ++ β ++ s = γ ++ β ++ ψ ∧ RSteps P ψ s := by
      rcases hG.between (γ := γ ++ β) hx (h.tail h1) hs hθ (by simpa using h2) with h3 | ⟨ψ, h3, _, h5⟩
      · generalize hq : γ ++ β ++ ρ ++ x = q at h3
        cases h3 with
        | refl =>
          refine ⟨ρ, ?_, hs⟩
          have : γ ++ β ++ ρ ++ x = γ' ++ β ++ s ++ x := by simpa using hq
          exact (List.append_cancel_right this).symm
        | tail h3 h6 =>
          subst hq
          have := hG.pred h h1 (hθ.trans h3) h6
          rw [← this] at h3
          obtain ⟨ψ1, h7, _⟩ := RSteps.suffix h3 (ht.append hx)
          exfalso
          have h8 : γ ++ [A] = ψ1 ++ s := by
            rw [← List.append_assoc ψ1, show γ ++ A :: x = (γ ++ [A]) ++ x by simp] at h7
            exact List.append_cancel_right h7
          have hne : s ≠ [] := by rintro rfl; cases hc
          have h9 := congrArg List.getLast? h8
          rw [List.getLast?_append_of_ne_nil _ hne, List.getLast?_concat] at h9
          exact ht A (List.mem_of_getLast? h9.symm) _ hr rfl
      · refine ⟨ψ, ?_, h5⟩
        rw [← List.append_assoc] at h3
        exact List.append_cancel_right h3
    obtain ⟨ψ, h3, h5⟩ := key
    obtain ⟨μ, e, hμ⟩ : ∃ μ, γ' ++ β = γ ++ β ++ μ ∧ RSteps P μ [] := by
      by_cases hl2 : ψ.length ≤ s.length
      · obtain ⟨p, hp⟩ : ∃ p, p ++ ψ = s :=
          List.suffix_of_suffix_length_le (l₃ := γ' ++ β ++ s) ⟨γ ++ β, h3.symm⟩ (List.suffix_append _ _) hl2
        have := h5.toks (Toks.right (hp ▸ ht))
        subst this
        exact ⟨[], by rw [List.append_nil]; exact List.append_cancel_right h3, .refl⟩
      · obtain ⟨μ, rfl⟩ : s <:+ ψ :=
          List.suffix_of_suffix_length_le (l₃ := γ' ++ β ++ s) (List.suffix_append _ _) ⟨γ ++ β, h3.symm⟩ (by omega)
        refine ⟨μ, ?_, h5.vanish ht⟩
        rw [← List.append_assoc] at h3
        exact List.append_cancel_right h3
    exact hG.overlap (ht.append hx) hθ e hμ hu hu' hv hv' htv htv' hne hw
  rcases hG.compare (t₁.append hx₁) (t₂.append hx₂) ((head hc₁).trans (head hc₂).symm) (form hx₁ h₁ hs₁) (form hx₂ h₂ hs₂)
    hu₁ hu₂ hv₁ hv₂ ht₁ ht₂ hw with ⟨h3, h4⟩ | ⟨h3, h4⟩
  · exact (uniq hx₂ t₂ hc₂ h₂ hs₂ h3 h4 hu₂ hu₁ hv₂ hv₁ ht₂ ht₁ hn₁ hw.symm).symm
  · exact uniq hx₁ t₁ hc₁ h₁ hs₁ h3 h4 hu₁ hu₂ hv₁ hv₂ ht₁ ht₂ hn₂ hw

/-- If `X` ends at two places, and at the first the next token can follow it, then `X` is left-recursive. -/
theorem LRGrammar.recursive {X c : Nat} {γ y v₁ v : List Nat} (hX : ¬ UTerminal P X) (ht : Toks P (c :: y)) (h : RForm P S (γ ++ X :: c :: y))
    (h1 : RSteps P [X] v₁) (h2 : RSteps P [X] (v₁ ++ c :: v)) (hv : Toks P v) : RSteps P [X] (X :: c :: v) := by
  have h : RForm P S (γ ++ [X] ++ c :: y) := by simpa using h
  have hcv : Toks P (c :: v) := by
    intro t h
    rcases List.mem_cons.1 h with rfl | h
    · exact ht t (by simp)
    · exact hv t h
  have hz' : Toks P (c :: v ++ c :: y) := hcv.append ht
  have h3 : RForm P S (γ ++ [X] ++ (c :: v ++ c :: y)) :=
    hG.det h (h1.left γ) (by have : RForm P S _ := h.trans (h2.ctx γ ht); simpa using this) ht hz' rfl
  have h4 : RSteps P (γ ++ [X] ++ (c :: v ++ c :: y)) (γ ++ (v₁ ++ c :: v) ++ c :: y) := by
    simpa using h1.ctx γ hz'
  rcases hG.between ht h h2 h3 h4 with h5 | ⟨ψ, h5, h6, _⟩
  · exfalso
    obtain ⟨ψ0, h6, _⟩ := h5.suffix hz'
    have h8 : γ ++ [X] = ψ0 ++ c :: v := by
      rw [← List.append_assoc ψ0] at h6
      exact List.append_cancel_right h6
    have h9 := congrArg List.getLast? h8
    rw [List.getLast?_concat, List.getLast?_append_of_ne_nil _ (by simp)] at h9
    exact hX (hcv X (List.mem_of_getLast? h9.symm))
  · have : X :: c :: v = ψ := by
      have h5 : γ ++ (X :: c :: v) ++ c :: y = γ ++ ψ ++ c :: y := by simpa using h5
      exact List.append_cancel_left (List.append_cancel_right h5)
    subst this
    exact h6

/-- A symbol is not left-recursive behind symbols that derive nothing. -/
theorem LRGrammar.hidden {X c : Nat} {γ μ v x : List Nat} (hrec : RSteps P [X] (μ ++ X :: c :: v)) (h0 : RSteps P [X] []) (hμ : RSteps P μ [])
    (hcv : Toks P (c :: v)) (hx : Toks P x) (h : RForm P S (γ ++ X :: x)) : μ = [] := by
  by_contra hne
  -- `k` times
  let rep : Nat → List Nat → List Nat := fun k l => (List.replicate k l).flatten
  have hcvk : ∀ k, Toks P (rep k (c :: v)) := by
    intro k t ht
    obtain ⟨l, hl, ht⟩ := List.mem_flatten.1 ht
    rw [List.eq_of_mem_replicate hl] at ht
    exact hcv t ht
  have hμk : ∀ k, RSteps P (rep k μ) [] := by
    intro k
    refine Nul.steps fun s hs => ?_
    obtain ⟨l, hl, hs⟩ := List.mem_flatten.1 hs
    rw [List.eq_of_mem_replicate hl] at hs
    exact Nul.of_steps hμ s hs
  have hsucc : ∀ k (l : List Nat), rep (k + 1) l = l ++ rep k l := by
    intro k l
    simp [rep, List.replicate_succ]
  have hsucc' : ∀ k (l : List Nat), rep (k + 1) l = rep k l ++ l := by
    intro k l
    simp [rep, List.replicate_succ']
  have hk : ∀ k, RForm P S (γ ++ rep k μ ++ [X] ++ (rep k (c :: v) ++ x)) := by
    intro k
    induction k with
    | zero => simpa [rep] using h
    | succ k ih =>
      have h1 := hrec.ctx (γ ++ rep k μ) ((hcvk k).append hx)
      have h2 : RForm P S _ := ih.trans h1
      rw [hsucc' k μ, hsucc k (c :: v)]
      simpa using h2
  have hd : ∀ k, RSteps P (γ ++ rep k μ ++ [X]) γ := by
    intro k
    have a1 := h0.left (γ ++ rep k μ)
    have a2 := (hμk k).left γ
    simp only [List.append_nil] at a1 a2
    exact a1.trans a2
  have hform1 : RForm P S (γ ++ (rep 1 (c :: v) ++ x)) := (hk 1).trans ((hd 1).right ((hcvk 1).append hx))
  refine hG.finite (t := γ ++ (rep 1 (c :: v) ++ x)) (fun k => γ ++ rep (k + 1) μ ++ [X] ++ (rep 1 (c :: v) ++ x)) ?_ ?_ ?_
  · intro i j e
    have h1 := List.append_cancel_right (List.append_cancel_right e)
    have h2 := congrArg List.length (List.append_cancel_left h1)
    simp only [rep, List.length_flatten, List.map_replicate, List.sum_replicate_nat] at h2
    have := List.length_pos_iff.2 hne
    have := Nat.eq_of_mul_eq_mul_right this h2
    omega
  · intro k
    refine hG.det (hk (k + 1)) (hd (k + 1)) hform1 ((hcvk _).append hx) ((hcvk _).append hx) ?_
    simp [hsucc, rep]
  · intro k
    exact (hd (k + 1)).right ((hcvk 1).append hx)

/-- A left-recursive symbol that can go on with the next token ends in one way. -/
theorem LRGrammar.once {X c : Nat} {v γ₁ γ₂ x₁ x₂ u₁ u₂ v₁ v₂ : List Nat} (hX : ¬ UTerminal P X) (hrec : RSteps P [X] (X :: c :: v))
    (hcv : Toks P (c :: v)) (hx₁ : Toks P x₁) (hx₂ : Toks P x₂) (h₁ : RForm P S (γ₁ ++ X :: x₁)) (h₂ : RForm P S (γ₂ ++ X :: x₂))
    (hu₁ : RSteps P γ₁ u₁) (hu₂ : RSteps P γ₂ u₂) (hv₁ : RSteps P [X] v₁) (hv₂ : RSteps P [X] v₂) (ht₁ : Toks P v₁) (ht₂ : Toks P v₂)
    (hw : u₁ ++ v₁ = u₂ ++ v₂) : v₁ = v₂ := by
  have form : ∀ {γ x : List Nat}, Toks P x → RForm P S (γ ++ X :: x) → RForm P S (γ ++ [X] ++ (c :: v ++ x)) := by
    intro γ x hx h
    have h2 := hrec.ctx γ hx
    simp only [List.append_assoc, List.cons_append, List.nil_append] at h2 ⊢
    exact h.trans h2
  have uniq : ∀ {γ x γ' : List Nat}, Toks P x → RForm P S (γ ++ X :: x) →
      RForm P S (γ' ++ [X] ++ (c :: v ++ x)) → RSteps P (γ' ++ [X] ++ (c :: v ++ x)) (γ ++ [X] ++ (c :: v ++ x)) → γ' = γ := by
    intro γ x γ' hx h hθ h2
    rcases hG.between (γ := γ) (β := [X]) (v := X :: c :: v) hx (by simpa using h) hrec hθ (by simpa using h2) with h3 | ⟨ψ, h3, h4, h5⟩
    · exfalso
      obtain ⟨ψ0, h4, _⟩ := h3.suffix (hcv.append hx)
      have h8 : γ ++ [X] = ψ0 ++ c :: v := by
        rw [← List.append_assoc ψ0] at h4
        exact List.append_cancel_right h4
      have h9 := congrArg List.getLast? h8
      rw [List.getLast?_concat, List.getLast?_append_of_ne_nil _ (by simp)] at h9
      exact hX (hcv X (List.mem_of_getLast? h9.symm))
    · have h3 : γ' ++ X :: c :: v = γ ++ ψ := by
        have : γ' ++ (X :: c :: v) ++ x = γ ++ ψ ++ x := by simpa using h3
        exact List.append_cancel_right this
      by_cases hl2 : ψ.length ≤ (X :: c :: v).length
      · obtain ⟨p, hp⟩ : ∃ p, p ++ ψ = X :: c :: v :=
          List.suffix_of_suffix_length_le (l₃ := γ' ++ X :: c :: v) ⟨γ, h3.symm⟩ (List.suffix_append _ _) hl2
        cases p with
        | nil =>
          have hp : ψ = X :: c :: v := hp
          subst hp
          exact List.append_cancel_right h3
        | cons q p =>
          exfalso
          have hp : p ++ ψ = c :: v := (List.cons.inj hp).2
          have := h5.toks (Toks.right (hp ▸ hcv))
          rw [← this] at hp
          have := congrArg List.length hp
          simp at this
          omega
      · obtain ⟨μ, rfl⟩ : (X :: c :: v) <:+ ψ :=
          List.suffix_of_suffix_length_le (l₃ := γ' ++ X :: c :: v) (List.suffix_append _ _) ⟨γ, h3.symm⟩ (by omega)
        have h6 : RSteps P (μ ++ [X]) [X] := by
          obtain ⟨ψ0, e, h7⟩ := RSteps.suffix (φ0 := μ ++ [X]) (z := c :: v) (by simpa using h5) hcv
          have : ψ0 = [X] := List.append_cancel_right (bs := c :: v) (by simpa using e.symm)
          rwa [this] at h7
        have h7 : μ = [] ∨ RSteps P [X] [] ∧ RSteps P μ [] := by
          rcases h6.split with ⟨ψ', e, h7⟩ | ⟨φ', ψ', e, h7, h8, h9⟩
          · cases μ with
            | nil => exact .inl rfl
            | cons a μ =>
              simp only [List.cons_append, List.cons.injEq] at e
              obtain ⟨rfl, e⟩ := e
              obtain ⟨rfl, rfl⟩ := List.append_eq_nil_iff.1 e.symm
              exact .inr ⟨h7, h7⟩
          · have : ψ' = [] := by
              by_contra hne
              have h10 := congrArg List.getLast? e
              rw [List.getLast?_append_of_ne_nil _ hne] at h10
              exact hX (h7 X (List.mem_of_getLast? h10.symm))
            subst this
            rw [List.append_nil] at e
            subst e
            exact .inr ⟨h9, h8.trans h9⟩
        have h8 : μ = [] := by
          rcases h7 with h7 | ⟨h7, h8⟩
          · exact h7
          · exact hG.hidden h4 h7 h8 hcv hx h
        subst h8
        simpa using h3
  rcases hG.compare (hcv.append hx₁) (hcv.append hx₂) (by simp) (form hx₁ h₁) (form hx₂ h₂) hu₁ hu₂ hv₁ hv₂ ht₁ ht₂ hw with ⟨h3, h4⟩ | ⟨h3, h4⟩
  · have := uniq hx₂ h₂ h3 h4
    subst this
    exact hG.unique (hcv.append hx₂) h3 hu₁ hu₂ hv₁ hv₂ ht₁ ht₂ hw
  · have := uniq hx₁ h₁ h3 h4
    subst this
    exact hG.unique (hcv.append hx₁) h3 hu₁ hu₂ hv₁ hv₂ ht₁ ht₂ hw

end Gearley.Spec
