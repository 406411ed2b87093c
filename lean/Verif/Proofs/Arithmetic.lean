import Verif.Spec.Arithmetic

/-! # The text of an arithmetic expression determines the expression -/

namespace Gearley.Spec.Expr

/-- The characters outside of parentheses, at depth `d`. -/
def outer : Nat → List Char → List (Option Char)
  | _, [] => []
  | d, c :: cs =>
    if c = '(' then none :: outer (d + 1) cs
    else if c = ')' then none :: outer (d - 1) cs
    else (if d = 0 then some c else none) :: outer d cs

theorem digitChar_ne (d : Fin 10) : digitChar d ≠ '(' ∧ digitChar d ≠ ')' ∧ ∀ op : Op, digitChar d ≠ op.char := by
  have : ∀ d : Fin 10, digitChar d ≠ '(' ∧ digitChar d ≠ ')' ∧ digitChar d ≠ '+' ∧ digitChar d ≠ '-' ∧ digitChar d ≠ '*' ∧ digitChar d ≠ '/' := by
    decide
  obtain ⟨h1, h2, h3, h4, h5, h6⟩ := this d
  refine ⟨h1, h2, fun op => ?_⟩
  cases op <;> assumption

theorem digitChar_inj {a b : Fin 10} : digitChar a = digitChar b → a = b := by
  revert a b
  decide

theorem opChar_ne (op : Op) : op.char ≠ '(' ∧ op.char ≠ ')' := by
  cases op <;> decide

theorem opChar_inj {a b : Op} : a.char = b.char → a = b := by
  cases a <;> cases b <;> decide

theorem outer_append (e : Expr) : ∀ d rest, outer d (e.text ++ rest) = outer d e.text ++ outer d rest := by
  induction e with
  | num ds =>
    intro d rest
    simp only [text]
    induction ds with
    | nil => rfl
    | cons x ds ih =>
      simp only [List.map_cons, List.cons_append, outer, if_neg (digitChar_ne x).1, if_neg (digitChar_ne x).2.1, ih]
  | bin op l r ihl ihr =>
    intro d rest
    simp only [text, List.append_assoc, ihl, List.cons_append, outer, if_neg (opChar_ne op).1, if_neg (opChar_ne op).2, ihr]
  | paren e ih =>
    intro d rest
    simp [text, ih, outer]

theorem outer_length (d : Nat) (cs : List Char) : (outer d cs).length = cs.length := by
  induction cs generalizing d with
  | nil => rfl
  | cons c cs ih =>
    simp only [outer]
    split
    · simp [ih]
    · split <;> simp [ih]

theorem outer_inside (e : Expr) (c : Char) : ∀ d, some c ∉ outer (d + 1) e.text := by
  induction e with
  | num ds =>
    intro d
    simp only [text]
    induction ds with
    | nil => simp [outer]
    | cons x ds ih => simp [outer, (digitChar_ne x).1, (digitChar_ne x).2.1, ih]
  | bin op l r ihl ihr =>
    intro d
    simp only [text, outer_append]
    simp [outer, (opChar_ne op).1, (opChar_ne op).2, ihl, ihr]
  | paren e ih =>
    intro d
    simp only [text]
    rw [outer, if_pos rfl, outer_append]
    simp [outer, ih]

/-- Operations outside of parentheses bind at least as strong as the expression. -/
theorem outer_level (e : Expr) (he : e.Grouped) (op : Op) (h : some op.char ∈ outer 0 e.text) : e.level ≤ op.level := by
  induction e with
  | num ds =>
    exfalso
    clear he
    simp only [text] at h
    induction ds with
    | nil => simp [outer] at h
    | cons x ds ih =>
      simp only [List.map_cons, outer, if_neg (digitChar_ne x).1, if_neg (digitChar_ne x).2.1, if_true, List.mem_cons, Option.some.injEq] at h
      rcases h with h | h
      · exact (digitChar_ne x).2.2 op h.symm
      · exact ih h
  | bin o l r ihl ihr =>
    obtain ⟨h1, h2, h3, h4⟩ := he
    simp only [text, outer_append, outer, if_neg (opChar_ne o).1, if_neg (opChar_ne o).2, if_true, List.mem_append, List.mem_cons, Option.some.injEq] at h
    show o.level ≤ op.level
    rcases h with h | h | h
    · exact Nat.le_trans h3 (ihl h1 h)
    · rw [opChar_inj h]
      exact Nat.le_refl _
    · exact Nat.le_trans (Nat.le_of_lt h4) (ihr h2 h)
  | paren e =>
    exfalso
    simp only [text] at h
    rw [outer, if_pos rfl, outer_append] at h
    simp [outer, outer_inside] at h

theorem split_unique {α : Type} (P : α → Prop) : ∀ {A A' B B' : List α} {x x' : α}, A ++ x :: B = A' ++ x' :: B' → P x → P x' → (∀ y ∈ B, ¬ P y) →
    (∀ y ∈ B', ¬ P y) → A.length = A'.length := by
  intro A
  induction A with
  | nil =>
    intro A' B B' x x' h hx hx' hB hB'
    cases A' with
    | nil => rfl
    | cons a A' =>
      simp only [List.nil_append, List.cons_append, List.cons.injEq] at h
      exact absurd hx' (hB x' (by rw [h.2]; simp))
  | cons a A ih =>
    intro A' B B' x x' h hx hx' hB hB'
    cases A' with
    | nil =>
      simp only [List.nil_append, List.cons_append, List.cons.injEq] at h
      exact absurd hx (hB' x (by rw [← h.2]; simp))
    | cons b A' =>
      simp only [List.cons_append, List.cons.injEq] at h
      simp [ih h.2 hx hx' hB hB']

theorem bin_level {e : Expr} {o : Op} {l r : Expr} (he : e.Grouped) (h : (bin o l r).text = e.text) :
    e.level ≤ o.level := by
  refine outer_level e he o ?_
  rw [← h]
  simp [text, outer_append, outer, (opChar_ne o).1, (opChar_ne o).2]

theorem op_level_lt (o : Op) : o.level < 2 := by
  cases o <;> decide

theorem text_ne_nil {e : Expr} (he : e.Grouped) : e.text ≠ [] := by
  cases e with
  | num ds => simpa [text, Grouped] using he
  | bin => simp [text]
  | paren => simp [text]

/-- An expression that is grouped as usual can be read in one way only. -/
theorem text_inj : ∀ {e e' : Expr}, e.Grouped → e'.Grouped → e.text = e'.text → e = e' := by
  intro e
  induction e with
  | num ds =>
    intro e' he he' h
    cases e' with
    | num ds' =>
      simp only [text] at h
      rw [List.map_inj_right (fun a b => digitChar_inj)] at h
      rw [h]
    | bin o l r =>
      have := bin_level he h.symm
      have := op_level_lt o
      simp only [level] at *
      omega
    | paren e' =>
      cases ds with
      | nil => exact absurd rfl he
      | cons d ds =>
        simp only [text, List.map_cons, List.cons.injEq] at h
        exact absurd h.1 (digitChar_ne d).1
  | bin o l r ihl ihr =>
    intro e' he he' h
    cases e' with
    | num ds =>
      have := bin_level he' h
      have := op_level_lt o
      simp only [level] at *
      omega
    | paren e' =>
      have := bin_level he' h
      have := op_level_lt o
      simp only [level] at *
      omega
    | bin o' l' r' =>
      have h1 : o'.level ≤ o.level := bin_level he' h
      have h2 : o.level ≤ o'.level := bin_level he h.symm
      have hcong := congrArg (outer 0) h
      simp only [text, outer_append, outer, if_neg (opChar_ne o).1, if_neg (opChar_ne o).2, if_neg (opChar_ne o').1, if_neg (opChar_ne o').2, if_true] at hcong
      have hlen := split_unique (fun c => ∃ op : Op, c = some op.char ∧ op.level ≤ o.level) hcong ⟨o, rfl, Nat.le_refl _⟩ ⟨o', rfl, h1⟩
        (by
          rintro y hy ⟨op, rfl, hop⟩
          have := outer_level r he.2.1 op hy
          have := he.2.2.2
          omega)
        (by
          rintro y hy ⟨op, rfl, hop⟩
          have := outer_level r' he'.2.1 op hy
          have := he'.2.2.2
          omega)
      rw [outer_length, outer_length] at hlen
      obtain ⟨a1, a2⟩ := List.append_inj h hlen
      simp only [List.cons.injEq] at a2
      rw [ihl he.1 he'.1 a1, ihr he.2.1 he'.2.1 a2.2, opChar_inj a2.1]
  | paren e ih =>
    intro e' he he' h
    cases e' with
    | num ds =>
      cases ds with
      | nil => exact absurd rfl he'
      | cons d ds =>
        simp only [text, List.map_cons, List.cons.injEq] at h
        exact absurd h.1.symm (digitChar_ne d).1
    | bin o l r =>
      have := bin_level he h.symm
      have := op_level_lt o
      simp only [level] at *
      omega
    | paren e' =>
      simp only [text, List.cons.injEq, true_and, List.append_left_inj] at h
      rw [ih he (show e'.Grouped from he') h]

end Gearley.Spec.Expr
