import Verif.Proofs.LR
import Verif.Spec.Seen

/-!
# What is found when an LR(1) grammar is parsed

The parser works with a binarized grammar `R`. Some of its symbols, the plain ones, are symbols of the user's grammar `P`. All others stand
for the beginning `ex X` of a rule of the symbol `own X`.
-/

namespace Gearley.Spec
variable {P : URules} {S : Nat}

theorem yields_steps {X : Nat} {v : List Nat} (h : Yields P X v) : Toks P v ∧ RSteps P [X] v := by
  refine Yields.rec (motive_1 := fun X v _ => Toks P v ∧ RSteps P [X] v) (motive_2 := fun φ v _ => Toks P v ∧ RSteps P φ v)
    ?_ ?_ ?_ ?_ h
  · intro a ha
    exact ⟨fun t ht => by rw [List.mem_singleton.1 ht]; exact ha, .refl⟩
  · intro k A rhs u hk _ ih
    refine ⟨ih.1, .head ?_ ih.2⟩
    have := RStep.mk (P := P) (γ := []) (x := []) (List.mem_of_getElem? hk) (by simp)
    simpa using this
  · exact ⟨fun t ht => (List.not_mem_nil ht).elim, .refl⟩
  · intro s ss u v _ _ ih1 ih2
    refine ⟨ih1.1.append ih2.1, ?_⟩
    have h1 := ih2.2.left [s]
    have h2 := ih1.2.right ih2.1
    exact h1.trans h2

theorem nullable_steps {A : Nat} (h : UNullable P A) : RSteps P [A] [] := by
  induction h with
  | @rule k A rhs hk _ ih =>
    refine .head ?_ (Nul.steps ih)
    have := RStep.mk (P := P) (γ := []) (x := []) (List.mem_of_getElem? hk) (by simp)
    simpa using this

/-- The binarized grammar `R` comes from `P`. -/
structure LeftBin (P : URules) (R : Rules) (ex : Nat → List Nat) (own : Nat → Nat) (plain : Nat → Prop) : Prop where
  ex_plain : ∀ X, plain X → ex X = [X] ∧ own X = X
  /-- a one-symbol rule is a rule of the user, or something that can be empty was removed after or before its symbol -/
  unary : ∀ X B, ⟨X, B, none⟩ ∈ R → (plain X ∧ plain B ∧ (X, [B]) ∈ P) ∨
    (∃ C ρ, (own X, ex B ++ C :: ρ) ∈ P ∧ UNullable P C ∧ (own B = own X ∨ plain B) ∧
      ((plain X ∧ ρ = []) ∨ (¬ plain X ∧ ex X = ex B ++ [C]))) ∨
    ∃ β ρ, plain B ∧ (own X, β ++ B :: ρ) ∈ P ∧ (∀ s ∈ β, UNullable P s) ∧ ((plain X ∧ ρ = []) ∨ (¬ plain X ∧ ex X = β ++ [B]))
  binary : ∀ X B C, ⟨X, B, some C⟩ ∈ R → plain C ∧ ∃ ρ, (own X, ex B ++ C :: ρ) ∈ P ∧ (own B = own X ∨ plain B) ∧
    ((plain X ∧ ρ = []) ∨ (¬ plain X ∧ ex X = ex B ++ [C]))

/-- Every symbol used in a rule derives a string of tokens. -/
def Productive (P : URules) : Prop := ∀ r ∈ P, ∀ s ∈ r.2, ∃ v, Yields P s v

theorem Productive.all (h : Productive P) {r : Nat × List Nat} (hr : r ∈ P) : ∀ φ : List Nat, (∀ s ∈ φ, s ∈ r.2) → ∃ v, Toks P v ∧ RSteps P φ v
  | [], _ => ⟨[], fun t ht => (List.not_mem_nil ht).elim, .refl⟩
  | s :: φ, hs => by
    obtain ⟨v, h1⟩ := h r hr s (hs s (by simp))
    obtain ⟨v', h2, h3⟩ := Productive.all h hr φ fun s hs' => hs s (by simp [hs'])
    exact ⟨v ++ v', (yields_steps h1).1.append h2, (h3.left [s]).trans ((yields_steps h1).2.right h2)⟩

variable {R : Rules} {ex : Nat → List Nat} {own : Nat → Nat} {plain : Nat → Prop}

/-- What a symbol with two symbols on the right-hand side stands for. -/
theorem LeftBin.two (h : LeftBin P R ex own plain) {X B C : Nat} (hr : ⟨X, B, some C⟩ ∈ R) : RSteps P (ex X) (ex B ++ [C]) := by
  obtain ⟨_, ρ, h2, _, ⟨h4, rfl⟩ | ⟨_, h4⟩⟩ := h.binary X B C hr
  · rw [(h.ex_plain X h4).1]
    rw [(h.ex_plain X h4).2] at h2
    have := RStep.mk (P := P) (γ := []) (x := []) h2 (by simp)
    exact .single (by simpa using this)
  · rw [h4]

/-- The same for one symbol, before which something may have been removed. -/
theorem LeftBin.one (h : LeftBin P R ex own plain) {X B : Nat} (hr : ⟨X, B, none⟩ ∈ R) :
    ∃ β, RSteps P β [] ∧ RSteps P (ex X) (β ++ ex B) := by
  have rule : ∀ {ρ : List Nat}, plain X → (own X, ρ) ∈ P → RSteps P (ex X) ρ := by
    intro ρ h1 h3
    rw [(h.ex_plain X h1).1]
    rw [(h.ex_plain X h1).2] at h3
    have := RStep.mk (P := P) (γ := []) (x := []) h3 (by simp)
    exact .single (by simpa using this)
  rcases h.unary X B hr with ⟨h1, h2, h3⟩ | ⟨C, ρ, h1, h2, _, h4⟩ | ⟨β, ρ, h1, h2, h3, h4⟩
  · refine ⟨[], .refl, ?_⟩
    rw [(h.ex_plain B h2).1]
    exact rule h1 (by rw [(h.ex_plain X h1).2]; exact h3)
  · refine ⟨[], .refl, ?_⟩
    have h5 := (nullable_steps h2).left (ex B)
    rw [List.append_nil] at h5
    rcases h4 with ⟨h4, rfl⟩ | ⟨_, h4⟩
    · exact (rule h4 h1).trans h5
    · rw [h4]; exact h5
  · refine ⟨β, Nul.steps fun s hs => nullable_steps (h3 s hs), ?_⟩
    rw [(h.ex_plain B h1).1]
    rcases h4 with ⟨h4, rfl⟩ | ⟨_, h4⟩
    · exact rule h4 h2
    · rw [h4]

/-- The rest of a rule derives tokens. -/
theorem LeftBin.second (h : LeftBin P R ex own plain) (hp : Productive P) {X B C : Nat} (hr : ⟨X, B, some C⟩ ∈ R) :
    ∃ v, Toks P v ∧ RSteps P [C] v := by
  obtain ⟨_, ρ, h2, _⟩ := h.binary X B C hr
  exact hp.all h2 [C] (by simp)

/-! ### What follows -/

theorem derives_ne {X : Nat} {φ : List Nat} (h : Derives R X φ) : φ ≠ [] := by
  induction h with
  | refl => simp
  | unary _ _ _ ih => exact ih
  | binary _ _ _ _ ih => simp [ih]

theorem LeftBin.last (h : LeftBin P R ex own plain) {A X : Nat} (hA : plain A) {φ : List Nat} (hd : Derives R X φ) :
    ∀ α, φ = α ++ [A] → ∃ γ, RSteps P (ex X) (γ ++ [A]) := by
  induction hd with
  | refl X =>
    intro α e
    have hl := congrArg List.length e
    have : α = [] := List.length_eq_zero_iff.1 (by simp at hl; simp [hl])
    subst this
    simp only [List.nil_append, List.cons.injEq, and_true] at e
    subst e
    exact ⟨[], by rw [(h.ex_plain X hA).1]; exact .refl⟩
  | @unary r u hr h1 _ ih =>
    intro α e
    obtain ⟨γ, hγ⟩ := ih α e
    obtain ⟨X, B, o⟩ := r
    simp only at h1 hγ
    subst h1
    obtain ⟨β, _, h3⟩ := h.one hr
    have := hγ.left β
    rw [← List.append_assoc] at this
    exact ⟨β ++ γ, h3.trans this⟩
  | @binary r C u v hr h1 hu hv _ ih2 =>
    intro α e
    obtain ⟨v', hv'⟩ : ∃ v', v = v' ++ [A] := by
      have h2 := congrArg List.getLast? e
      rw [List.getLast?_append_of_ne_nil _ (derives_ne hv), List.getLast?_concat] at h2
      exact ⟨_, (List.dropLast_append_getLast? A h2).symm⟩
    obtain ⟨γ, hγ⟩ := ih2 v' hv'
    obtain ⟨X, B, o⟩ := r
    simp only at h1 hγ
    subst h1
    rw [(h.ex_plain C (h.binary X B C hr).1).1] at hγ
    refine ⟨ex B ++ γ, (h.two hr).trans ?_⟩
    have := hγ.left (ex B)
    simpa using this

theorem LeftBin.first (h : LeftBin P R ex own plain) (hp : Productive P) {t X : Nat} (ht : plain t) (htt : UTerminal P t) {φ : List Nat}
    (hd : Derives R X φ) : ∀ β, φ = t :: β → ∃ y, Toks P y ∧ RSteps P (ex X) (t :: y) := by
  induction hd with
  | refl X =>
    intro β e
    simp only [List.cons.injEq] at e
    obtain ⟨rfl, _⟩ := e
    exact ⟨[], fun t ht => (List.not_mem_nil ht).elim, by rw [(h.ex_plain X ht).1]⟩
  | @unary r u hr h1 _ ih =>
    intro β e
    obtain ⟨y, hy, hs⟩ := ih β e
    obtain ⟨X, B, o⟩ := r
    simp only at h1 hs
    subst h1
    obtain ⟨b, h2, h3⟩ := h.one hr
    have hty : Toks P (t :: y) := by
      intro s hs
      rcases List.mem_cons.1 hs with rfl | hs
      · exact htt
      · exact hy s hs
    exact ⟨y, hy, h3.trans ((hs.left b).trans (h2.right hty))⟩
  | @binary r C u v hr h1 hu hv ih1 _ =>
    intro β e
    obtain ⟨X, B, o⟩ := r
    simp only at h1 hu ih1
    subst h1
    cases u with
    | nil => exact absurd rfl (derives_ne hu)
    | cons x u' =>
      simp only [List.cons_append, List.cons.injEq] at e
      obtain ⟨rfl, _⟩ := e
      obtain ⟨y, hy, hs⟩ := ih1 u' rfl
      obtain ⟨v', hv1, hv2⟩ := h.second hp hr
      exact ⟨y ++ v', hy.append hv1, (h.two hr).trans ((hv2.left (ex B)).trans (hs.right hv1))⟩

theorem LeftBin.follows (h : LeftBin P R ex own plain) (hp : Productive P) {A t X : Nat} (hA : plain A) (ht : plain t) (htt : UTerminal P t)
    {φ : List Nat} (hd : Derives R X φ) : ∀ α β, φ = α ++ A :: t :: β → ∃ γ y, Toks P y ∧ RSteps P (ex X) (γ ++ A :: t :: y) := by
  induction hd with
  | refl X =>
    intro α β e
    have hl := congrArg List.length e
    simp at hl
    omega
  | @unary r u hr h1 _ ih =>
    intro α β e
    obtain ⟨γ, y, hy, hs⟩ := ih α β e
    obtain ⟨X, B, o⟩ := r
    simp only at h1 hs
    subst h1
    obtain ⟨b, _, h3⟩ := h.one hr
    have := hs.left b
    rw [← List.append_assoc] at this
    exact ⟨b ++ γ, y, hy, h3.trans this⟩
  | @binary r C u v hr h1 hu hv ih1 ih2 =>
    intro α β e
    obtain ⟨X, B, o⟩ := r
    simp only at h1 hu ih1
    subst h1
    have hC := (h.ex_plain C (h.binary X B C hr).1).1
    rw [hC] at ih2
    rcases List.append_eq_append_iff.1 e with ⟨a', h2, h3⟩ | ⟨c', h2, h3⟩
    · obtain ⟨γ, y, hy, hs⟩ := ih2 a' β h3
      refine ⟨ex B ++ γ, y, hy, (h.two hr).trans ?_⟩
      have := hs.left (ex B)
      simpa using this
    · cases c' with
      | nil =>
        obtain ⟨γ, y, hy, hs⟩ := ih2 [] β (by simpa using h3.symm)
        refine ⟨ex B ++ γ, y, hy, (h.two hr).trans ?_⟩
        have := hs.left (ex B)
        simpa using this
      | cons x c' =>
        simp only [List.cons_append, List.cons.injEq] at h3
        obtain ⟨rfl, h4⟩ := h3
        cases c' with
        | nil =>
          obtain ⟨γ, hγ⟩ := h.last hA hu α h2
          obtain ⟨y, hy, hs⟩ := h.first hp ht htt hv β (by simpa using h4.symm)
          rw [hC] at hs
          refine ⟨γ, y, hy, (h.two hr).trans ((hs.left (ex B)).trans ?_)⟩
          have := hγ.right (x := t :: y) (by
            intro s hs
            rcases List.mem_cons.1 hs with rfl | hs
            · exact htt
            · exact hy s hs)
          simpa using this
        | cons x c' =>
          simp only [List.cons_append, List.cons.injEq] at h4
          obtain ⟨rfl, h4⟩ := h4
          obtain ⟨γ, y, hy, hs⟩ := ih1 α c' h2
          obtain ⟨v', hv1, hv2⟩ := h.second hp hr
          refine ⟨γ, y ++ v', hy.append hv1, (h.two hr).trans ((hv2.left (ex B)).trans ?_)⟩
          have := hs.right hv1
          simpa using this

/-! ### The input -/

/-- The tokens from `a` to `b`. -/
def slice (W : List Nat) (a b : Nat) : List Nat := (W.take b).drop a

theorem slice_length (W : List Nat) {a b : Nat} (hb : b ≤ W.length) : (slice W a b).length = b - a := by
  simp [slice]; omega

theorem take_slice (W : List Nat) {a b : Nat} (h : a ≤ b) : W.take a ++ slice W a b = W.take b := by
  have := List.take_append_drop a (W.take b)
  rwa [List.take_take, Nat.min_eq_left h] at this

theorem slice_append (W : List Nat) {a m b : Nat} (h1 : a ≤ m) (h2 : m ≤ b) : slice W a m ++ slice W m b = slice W a b := by
  have e1 := take_slice W h1
  have e2 := take_slice W h2
  have e3 := take_slice W (h1.trans h2)
  rw [← e1, List.append_assoc, ← e3] at e2
  exact List.append_cancel_left e2

theorem slice_head (W : List Nat) {a b : Nat} (h : a < b) : (slice W a b).head? = W[a]? := by
  rw [slice, List.head?_drop, List.getElem?_take_of_lt h]

theorem slice_toks {W : List Nat} (h : Toks P W) (a b : Nat) : Toks P (slice W a b) :=
  fun t ht => h t (List.mem_of_mem_take (List.mem_of_mem_drop ht))

/-- The input is the string `W` of tokens. -/
structure Inp (P : URules) (plain : Nat → Prop) (inp : Input) (W : List Nat) : Prop where
  toks : Toks P W
  inp : ∀ e A v, (A, v) ∈ inp e → W[e]? = some A ∧ plain A

variable {inp : Input} {W : List Nat}

theorem slice_one {e A : Nat} (h : W[e]? = some A) : slice W e (e + 1) = [A] := by
  have h1 := slice_length W (a := e) (b := e + 1) (List.getElem?_eq_some_iff.1 h).1
  have h2 := slice_head W (a := e) (b := e + 1) (by omega)
  match hs : slice W e (e + 1) with
  | [] => rw [hs] at h1; simp at h1
  | [x] => rw [hs, h] at h2; simp at h2; rw [h2]
  | x :: y :: l => rw [hs] at h1; simp at h1

theorem tree_steps (h : LeftBin P R ex own plain) (hi : Inp P plain inp W) {t : PTree} {X a b : Nat} (ht : TreeOf R inp t X a b) :
    a < b ∧ b ≤ W.length ∧ RSteps P (ex X) (slice W a b) := by
  induction ht with
  | leaf hm =>
    obtain ⟨h1, h2⟩ := hi.inp _ _ _ hm
    refine ⟨by omega, (List.getElem?_eq_some_iff.1 h1).1, ?_⟩
    rw [slice_one h1, (h.ex_plain _ h2).1]
  | unary hr _ ih =>
    obtain ⟨β, h2, h3⟩ := h.one (List.mem_of_getElem? hr)
    exact ⟨ih.1, ih.2.1, h3.trans ((ih.2.2.left β).trans (h2.right (slice_toks hi.toks _ _)))⟩
  | @binary d A B C l r i k j hr _ _ ih1 ih2 =>
    have hr := List.mem_of_getElem? hr
    refine ⟨ih1.1.trans ih2.1, ih2.2.1, (h.two hr).trans ?_⟩
    have h2 := ih2.2.2
    rw [(h.ex_plain C (h.binary A B C hr).1).1] at h2
    rw [← slice_append W (Nat.le_of_lt ih1.1) (Nat.le_of_lt ih2.1)]
    exact (h2.left (ex B)).trans (ih1.2.2.right (slice_toks hi.toks _ _))

theorem seen_tree {first follow : Nat → Nat → Prop} {n : Nat} {hint : Nat → Option Nat} {b A a : Nat}
    (h : Seen first follow n R inp hint b A a) : ∃ t, TreeOf R inp t A a b := by
  induction h with
  | token h => exact ⟨_, .leaf h⟩
  | unary hr _ _ ih =>
    obtain ⟨t, ht⟩ := ih
    obtain ⟨d, hd⟩ := List.getElem?_of_mem hr
    exact ⟨_, .unary hd ht⟩
  | binary hr _ _ _ _ ih1 ih2 =>
    obtain ⟨t, ht⟩ := ih1
    obtain ⟨t', ht'⟩ := ih2
    obtain ⟨d, hd⟩ := List.getElem?_of_mem hr
    exact ⟨_, .binary hd ht ht'⟩

/-- What is predicted is expected. -/
theorem pred_form (h : LeftBin P R ex own plain) (hp : Productive P) (hi : Inp P plain inp W) (hS : plain S) {a X : Nat}
    (ht : Pred R S inp a X) : ∃ γ x, Toks P x ∧ RForm P S (γ ++ own X :: x) ∧ RSteps P γ (W.take a) := by
  induction ht with
  | start => exact ⟨[], [], fun t ht => (List.not_mem_nil ht).elim, by rw [(h.ex_plain S hS).2]; exact .refl, by simpa using Relation.ReflTransGen.refl⟩
  | @corner p X B _ hc ih =>
    obtain ⟨γ, x, h1, h2, h3⟩ := ih
    obtain ⟨⟨X', B', o⟩, hr, e1, e2⟩ := hc
    simp only at e1 e2
    subst e1 e2
    -- the symbol is the first of its rule, or what is before it is empty
    have key : ∀ {β ρ : List Nat} {C : Nat}, plain C → RSteps P β [] → (own X', β ++ C :: ρ) ∈ P →
        ∃ γ x, Toks P x ∧ RForm P S (γ ++ own C :: x) ∧ RSteps P γ (W.take p) := by
      intro β ρ C k1 k2 k3
      obtain ⟨v, hv, hs⟩ := hp.all k3 ρ (fun s hs => by simp [hs])
      refine ⟨γ ++ β, v ++ x, hv.append h1, ?_, ?_⟩
      · rw [(h.ex_plain _ k1).2]
        have h4 := RStep.mk (γ := γ) k3 h1
        have h5 := hs.ctx (γ ++ β ++ [C]) h1
        simp only [List.append_assoc, List.cons_append, List.nil_append] at h4 h5 ⊢
        exact (h2.tail h4).trans h5
      · have := k2.left γ
        rw [List.append_nil] at this
        exact this.trans h3
    cases o with
    | none =>
      rcases h.unary _ _ hr with ⟨k1, k2, k3⟩ | ⟨C, ρ, k1, _, k2 | k2, _⟩ | ⟨β, ρ, k1, k2, k3, _⟩
      · rw [← (h.ex_plain _ k1).2] at k3
        exact key (β := []) k2 .refl k3
      · rw [k2]; exact ⟨γ, x, h1, h2, h3⟩
      · rw [(h.ex_plain _ k2).1] at k1
        exact key (β := []) k2 .refl k1
      · exact key k1 (Nul.steps fun s hs => nullable_steps (k3 s hs)) k2
    | some C =>
      obtain ⟨_, ρ, k2, k3 | k3, _⟩ := h.binary _ _ _ hr
      · rw [k3]; exact ⟨γ, x, h1, h2, h3⟩
      · rw [(h.ex_plain _ k3).1] at k2
        exact key (β := []) k3 .refl k2
  | @medial d A B C q p t hr _ htr ih =>
    obtain ⟨γ, x, h1, h2, h3⟩ := ih
    have hr := List.mem_of_getElem? hr
    obtain ⟨k1, ρ, k2, _⟩ := h.binary _ _ _ hr
    obtain ⟨v, hv, hs⟩ := hp.all k2 ρ (fun s hs => by simp [hs])
    obtain ⟨j1, j2, j3⟩ := tree_steps h hi htr
    refine ⟨γ ++ ex B, v ++ x, hv.append h1, ?_, ?_⟩
    · rw [(h.ex_plain _ k1).2]
      have h4 := RStep.mk (γ := γ) k2 h1
      have h5 := hs.ctx (γ ++ ex B ++ [C]) h1
      simp only [List.append_assoc, List.cons_append, List.nil_append] at h4 h5 ⊢
      exact (h2.tail h4).trans h5
    · rw [← take_slice W (Nat.le_of_lt j1)]
      exact (j3.left γ).trans (h3.right (slice_toks hi.toks _ _))

/-! ### Determinism -/

variable (hG : LRGrammar P S) (h : LeftBin P R ex own plain) (hp : Productive P) (hi : Inp P plain inp W) (hS : plain S)
include hG h hp hi hS

/-- Where the rest of a rule can go on, a symbol for its beginning ends with one origin. -/
theorem one_prefix {X B a a' m : Nat} {ρ s : List Nat} {t t' : PTree} (hr : (own X, ex B ++ ρ) ∈ P) (hs : RSteps P ρ s) (hts : Toks P s)
    (hne : s ≠ []) (h1 : Pred R S inp a X) (h1' : Pred R S inp a' X) (h2 : TreeOf R inp t B a m) (h2' : TreeOf R inp t' B a' m) : a = a' := by
  obtain ⟨γ, x, i1, i2, i3⟩ := pred_form h hp hi hS h1
  obtain ⟨γ', x', i1', i2', i3'⟩ := pred_form h hp hi hS h1'
  obtain ⟨j1, j2, j3⟩ := tree_steps h hi h2
  obtain ⟨j1', j2', j3'⟩ := tree_steps h hi h2'
  have hc : s.head? = some (s.head hne) := List.head?_eq_some_head hne
  have hn : ∀ {a}, a < m → slice W a m ≠ [] := by
    intro a ha e
    have := slice_length W (a := a) j2
    rw [e] at this
    simp at this
    omega
  have := hG.medial hr i1 i1' i2 i2' hs hs hts hts hc hc i3 i3' j3 j3' (slice_toks hi.toks _ _) (slice_toks hi.toks _ _) (hn j1) (hn j1')
    (by rw [take_slice W (Nat.le_of_lt j1), take_slice W (Nat.le_of_lt j1')])
  have := congrArg List.length this
  rw [slice_length W j2, slice_length W j2] at this
  omega

/-- Where `C` is found from `m` on, a rule with `C` as its second symbol waits with one origin. -/
theorem one_origin {X B C a a' m b : Nat} {t t' s : PTree} (hr : ⟨X, B, some C⟩ ∈ R) (h1 : Pred R S inp a X) (h1' : Pred R S inp a' X)
    (h2 : TreeOf R inp t B a m) (h2' : TreeOf R inp t' B a' m) (h3 : TreeOf R inp s C m b) : a = a' := by
  obtain ⟨k1, ρ, k2, _⟩ := h.binary _ _ _ hr
  obtain ⟨l1, l2, l3⟩ := tree_steps h hi h3
  rw [(h.ex_plain C k1).1] at l3
  obtain ⟨v, hv, hs⟩ := hp.all k2 ρ (fun s hs => by simp [hs])
  have hρ : RSteps P (C :: ρ) (slice W m b ++ v) := (hs.left [C]).trans (l3.right hv)
  refine one_prefix hG h hp hi hS k2 hρ ((slice_toks hi.toks m b).append hv) ?_ h1 h1' h2 h2'
  intro e
  have := congrArg List.length e
  rw [List.length_append, slice_length W l2] at this
  simp at this
  omega

/-- If a symbol is found up to `b`, where the next token can follow it, and also further, then it is not found up to `b` from elsewhere. -/
theorem one_start {X a a' b b' : Nat} {t t' s : PTree} (hX : plain X) (h1 : Pred R S inp a X) (h1' : Pred R S inp a' X)
    (h2 : TreeOf R inp t X a b) (h2' : TreeOf R inp t' X a' b) (h3 : TreeOf R inp s X a b') (hb : b < b')
    (hf : ¬ UTerminal P X → ∀ c, W[b]? = some c → ∃ γ y, Toks P y ∧ RForm P S (γ ++ X :: c :: y)) : a = a' := by
  obtain ⟨γ, x, i1, i2, i3⟩ := pred_form h hp hi hS h1
  obtain ⟨γ', x', i1', i2', i3'⟩ := pred_form h hp hi hS h1'
  obtain ⟨j1, j2, j3⟩ := tree_steps h hi h2
  obtain ⟨j1', j2', j3'⟩ := tree_steps h hi h2'
  obtain ⟨l1, l2, l3⟩ := tree_steps h hi h3
  rw [(h.ex_plain X hX).1] at j3 j3' l3
  rw [(h.ex_plain X hX).2] at i2 i2'
  by_cases hXt : UTerminal P X
  · have e1 := congrArg List.length (RSteps.toks j3 (by intro t ht; rw [List.mem_singleton.1 ht]; exact hXt))
    have e2 := congrArg List.length (RSteps.toks j3' (by intro t ht; rw [List.mem_singleton.1 ht]; exact hXt))
    rw [slice_length W j2] at e1 e2
    simp at e1 e2
    omega
  have hbl : b < W.length := by omega
  obtain ⟨γ3, y, hy, hf⟩ := hf hXt W[b] (List.getElem?_eq_getElem hbl)
  -- the tokens from `b` to `b'`
  obtain ⟨v, hv⟩ : ∃ v, slice W b b' = W[b] :: v := by
    have := slice_head W hb
    rw [List.getElem?_eq_getElem hbl] at this
    match hsl : slice W b b' with
    | [] => rw [hsl] at this; cases this
    | y :: l =>
      rw [hsl] at this
      simp only [List.head?_cons, Option.some.injEq] at this
      exact ⟨l, by rw [this]⟩
  have htv : Toks P (W[b] :: v) := hv ▸ slice_toks hi.toks b b'
  have hrec := hG.recursive hXt (c := W[b]) (v₁ := slice W a b) (v := v) (X := X) (γ := γ3) (y := y) (by
      intro t ht
      rcases List.mem_cons.1 ht with rfl | ht
      · exact htv _ (by simp)
      · exact hy t ht) hf j3 (by rw [← hv, slice_append W (Nat.le_of_lt j1) (Nat.le_of_lt hb)]; exact l3)
    (fun t ht => htv t (by simp [ht]))
  have := hG.once hXt hrec htv i1 i1' i2 i2' i3 i3' j3 j3' (slice_toks hi.toks _ _) (slice_toks hi.toks _ _)
    (by rw [take_slice W (Nat.le_of_lt j1), take_slice W (Nat.le_of_lt j1')])
  have := congrArg List.length this
  rw [slice_length W j2, slice_length W j2] at this
  omega

end Gearley.Spec
