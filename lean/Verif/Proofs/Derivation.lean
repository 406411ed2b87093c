import Verif.Spec.Grammar
import Mathlib.Tactic.Linarith

/-! # Facts about derivations -/

namespace Gearley.Spec
variable {R : Rules} {inp : Input} {start n : Nat}

theorem mem_of_getElem? {d : Nat} {r : Rule} (h : R[d]? = some r) : r ∈ R := List.mem_of_getElem? h

theorem TreeOf.lt {t A i j} (h : TreeOf R inp t A i j) : i < j := by
  induction h with
  | leaf _ => omega
  | unary _ _ ih => exact ih
  | binary _ _ _ ih1 ih2 => omega

/-- Number of leaves. -/
def PTree.width : PTree → Nat
  | .leaf _ _ => 1
  | .node _ f => f.width
  | .pair l r => l.width + r.width
  | .nulling _ => 0

theorem TreeOf.width {t A i j} (h : TreeOf R inp t A i j) : i + t.width = j := by
  induction h with
  | leaf _ => rfl
  | unary _ _ ih => exact ih
  | binary _ _ _ ih1 ih2 => simp only [PTree.width]; omega

/-- Trees only depend on the input they span. -/
theorem TreeOf.congr {inp' : Input} {t A i j} (h : TreeOf R inp t A i j) (he : ∀ p, i ≤ p → p < j → inp p = inp' p) :
    TreeOf R inp' t A i j := by
  induction h with
  | leaf hm => exact .leaf (by rw [← he _ (by omega) (by omega)]; exact hm)
  | unary hr _ ih => exact .unary hr (ih he)
  | binary hr hl hr' ih1 ih2 =>
    have := hl.lt; have := hr'.lt
    exact .binary hr (ih1 fun p h1 h2 => he p h1 (by omega)) (ih2 fun p h1 h2 => he p (by omega) h2)

theorem Ctx.le {A i j} (h : Ctx R start inp n A i j) : j ≤ n := by
  induction h with
  | root => omega
  | unary _ _ ih => exact ih
  | left _ _ ht ih => have := ht.lt; omega
  | right _ _ _ ih => exact ih

/-- Replacing a symbol of a sentential form. -/
theorem Derives.subst {A B : Nat} {u w : List Nat} (hu : Derives R B u) (h : Derives R A w) :
    ∀ α γ, w = α ++ B :: γ → Derives R A (α ++ u ++ γ) := by
  induction h with
  | refl A =>
    intro α γ he
    cases α with
    | nil =>
      simp only [List.nil_append, List.cons.injEq] at he
      obtain ⟨rfl, rfl⟩ := he
      simpa using hu
    | cons x α => simp at he
  | unary hr h1 _ ih =>
    intro α γ he
    exact .unary hr h1 (ih α γ he)
  | binary hr h1 hu' hv ih1 ih2 =>
    intro α γ he
    rcases List.append_eq_append_iff.1 he with ⟨a', h2, h3⟩ | ⟨c', h2, h3⟩
    · have := ih2 a' γ h3
      have h4 := Derives.binary hr h1 hu' this
      rw [h2]; simpa using h4
    · cases c' with
      | nil =>
        simp only [List.append_nil] at h2
        simp only [List.nil_append] at h3
        have := ih2 [] γ (by simp [h3])
        have h4 := Derives.binary hr h1 hu' this
        rw [← h2]; simpa using h4
      | cons x c' =>
        simp only [List.cons_append, List.cons.injEq] at h3
        obtain ⟨rfl, rfl⟩ := h3
        have := ih1 α c' h2
        have h4 := Derives.binary hr h1 this hv
        simpa using h4

theorem Derives.replace {A B : Nat} {u α γ : List Nat} (h : Derives R A (α ++ B :: γ)) (hu : Derives R B u) :
    Derives R A (α ++ u ++ γ) := hu.subst h α γ rfl

theorem Derives.single {r : Rule} (hr : r ∈ R) (h1 : r.rhs1 = none) : Derives R r.lhs [r.rhs0] :=
  .unary hr h1 (.refl _)

theorem Derives.two {r : Rule} {C : Nat} (hr : r ∈ R) (h1 : r.rhs1 = some C) : Derives R r.lhs [r.rhs0, C] :=
  .binary (u := [r.rhs0]) (v := [C]) hr h1 (.refl _) (.refl _)

theorem Derives.ne_nil {A u} (h : Derives R A u) : u ≠ [] := by
  induction h with
  | refl => simp
  | unary _ _ _ ih => exact ih
  | binary _ _ _ _ ih _ => simp [ih]

theorem picks_append {i : Nat} {u v : List Nat} :
    Picks inp i (u ++ v) ↔ Picks inp i u ∧ Picks inp (i + u.length) v := by
  induction u generalizing i with
  | nil => simp [Picks]
  | cons a u ih => simp only [List.cons_append, Picks, ih, List.length_cons, and_assoc]; rw [Nat.add_right_comm, Nat.add_assoc]

/-- Trees give derivations of picked strings. -/
theorem TreeOf.derives {t A i j} (h : TreeOf R inp t A i j) :
    ∃ u, Derives R A u ∧ Picks inp i u ∧ i + u.length = j := by
  induction h with
  | leaf hm => exact ⟨[_], .refl _, ⟨⟨_, hm⟩, trivial⟩, rfl⟩
  | unary hr _ ih =>
    obtain ⟨u, h1, h2, h3⟩ := ih
    exact ⟨u, .unary (mem_of_getElem? hr) rfl h1, h2, h3⟩
  | binary hr _ _ ih1 ih2 =>
    obtain ⟨u, h1, h2, h3⟩ := ih1
    obtain ⟨v, h4, h5, h6⟩ := ih2
    refine ⟨u ++ v, .binary (mem_of_getElem? hr) rfl h1 h4, picks_append.2 ⟨h2, by rw [h3]; exact h5⟩, ?_⟩
    simp; omega

/-- Derivations of picked strings give trees. -/
theorem Derives.tree {A u} (h : Derives R A u) : ∀ i, Picks inp i u → ∃ t, TreeOf R inp t A i (i + u.length) := by
  induction h with
  | refl A =>
    intro i hp
    obtain ⟨⟨v, hv⟩, _⟩ := hp
    exact ⟨_, .leaf hv⟩
  | @unary r u hr h1 _ ih =>
    intro i hp
    obtain ⟨t, ht⟩ := ih i hp
    obtain ⟨d, hd⟩ := List.mem_iff_getElem?.1 hr
    refine ⟨.node d t, .unary (B := r.rhs0) ?_ ht⟩
    rw [hd]; obtain ⟨_, _, _⟩ := r; simp_all
  | @binary r C u v hr h1 _ _ ih1 ih2 =>
    intro i hp
    obtain ⟨hp1, hp2⟩ := picks_append.1 hp
    obtain ⟨t1, ht1⟩ := ih1 i hp1
    obtain ⟨t2, ht2⟩ := ih2 _ hp2
    obtain ⟨d, hd⟩ := List.mem_iff_getElem?.1 hr
    refine ⟨.node d (.pair t1 t2), ?_⟩
    have : i + (u ++ v).length = i + u.length + v.length := by simp; omega
    rw [this]
    refine .binary (B := r.rhs0) (C := C) ?_ ht1 ht2
    rw [hd]; obtain ⟨_, _, _⟩ := r; simp_all

/-- The symbol of a context occurs in a sentential form of the start symbol, directly followed by a token of the
position where it ends (if it does not end at the end). -/
theorem Ctx.follow {A i j} (h : Ctx R start inp n A i j) :
    ∃ α γ, Derives R start (α ++ A :: γ) ∧ (j < n → ∃ t v γ', (t, v) ∈ inp j ∧ γ = t :: γ') := by
  induction h with
  | root => exact ⟨[], [], .refl _, fun h => absurd h (Nat.lt_irrefl _)⟩
  | unary hr _ ih =>
    obtain ⟨α, γ, h1, h2⟩ := ih
    have := h1.replace (Derives.single (mem_of_getElem? hr) rfl)
    exact ⟨α, γ, by simpa using this, h2⟩
  | @left d A B C r i k j hr _ ht ih =>
    obtain ⟨α, γ, h1, h2⟩ := ih
    have h3 := h1.replace (Derives.two (mem_of_getElem? hr) rfl)
    obtain ⟨u, hu1, hu2, hu3⟩ := ht.derives
    have h4 : Derives R start ((α ++ [B]) ++ C :: γ) := by simpa using h3
    have h5 := h4.replace hu1
    cases u with
    | nil => exact absurd rfl hu1.ne_nil
    | cons t u =>
      obtain ⟨⟨v, hv⟩, _⟩ := hu2
      exact ⟨α, t :: u ++ γ, by simpa using h5, fun _ => ⟨t, v, u ++ γ, hv, by simp⟩⟩
  | @right d A B C l i k j hr _ ht ih =>
    obtain ⟨α, γ, h1, h2⟩ := ih
    have h3 := h1.replace (Derives.two (mem_of_getElem? hr) rfl)
    exact ⟨α ++ [B], γ, by simpa using h3, h2⟩

/-- A useful item: a rule recognized up to the middle, whose second half and context are matched by the input. -/
def UsefulItem (R : Rules) (start : Nat) (inp : Input) (n : Nat) (d a e : Nat) (l : PTree) : Prop :=
  ∃ A B C b r, R[d]? = some ⟨A, B, some C⟩ ∧ Ctx R start inp n A a b ∧ TreeOf R inp l B a e ∧ TreeOf R inp r C e b

/-- A derivation that crosses position `e` has an item that stands at `e`. -/
theorem crossing {t A i j e} (h : TreeOf R inp t A i j) (hc : Ctx R start inp n A i j) (h1 : i < e) (h2 : e < j) :
    ∃ d a l, i ≤ a ∧ UsefulItem R start inp n d a e l := by
  induction h with
  | leaf _ => omega
  | unary hr _ ih => exact ih (.unary hr hc) h1 h2
  | @binary d A B C l r i k j hr hl hr' ih1 ih2 =>
    rcases Nat.lt_trichotomy k e with h | h | h
    · obtain ⟨d', a, l', h3, h4⟩ := ih2 (.right hr hc hl) h h2
      exact ⟨d', a, l', by have := hl.lt; omega, h4⟩
    · subst h
      exact ⟨d, i, l, le_refl _, A, B, C, j, r, hr, hc, hl, hr'⟩
    · exact ih1 (.left hr hc hr') h1 h

end Gearley.Spec
