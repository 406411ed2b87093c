import Verif.Proofs.Calculator
import Verif.Props.UserPacked

/-! # The trees of the ambiguous grammar of arithmetic -/

namespace Gearley.Spec

theorem opCount_append (s t : List Char) : opCount (s ++ t) = opCount s + opCount t := List.countP_append
theorem opCount_nil : opCount [] = 0 := rfl
theorem opCount_op (o : Op) (s : List Char) : opCount (o.char :: s) = opCount s + 1 := by
  unfold opCount
  rw [List.countP_cons_of_pos]
  cases o <;> decide
theorem opCount_digit (d : Fin 10) (s : List Char) : opCount (Expr.digitChar d :: s) = opCount s := by
  unfold opCount
  rw [List.countP_cons_of_neg]
  have : ∀ d : Fin 10, ¬ (decide (Expr.digitChar d = '+' ∨ Expr.digitChar d = '-' ∨ Expr.digitChar d = '*' ∨ Expr.digitChar d = '/') = true) := by decide +kernel
  exact this d
theorem opCount_digits (ds : List (Fin 10)) : opCount (ds.map Expr.digitChar) = 0 := by
  induction ds with
  | nil => rfl
  | cons d ds ih => rw [List.map_cons, opCount_digit, ih]

namespace Expr

theorem opCount_bin (o : Op) (l r : Expr) : opCount (bin o l r).text = opCount l.text + opCount r.text + 1 := by
  show opCount (l.text ++ o.char :: r.text) = _
  rw [opCount_append, opCount_op]
  omega

theorem Plain.ne_nil {e : Expr} (h : e.Plain) : e.text ≠ [] := by
  cases e with
  | num ds => exact fun h0 => h (List.map_eq_nil_iff.1 h0)
  | bin => simp [text]
  | paren => cases h

theorem digits_inj : ∀ {ds ds' : List (Fin 10)}, ds.map digitChar = ds'.map digitChar → ds = ds'
  | [], [], _ => rfl
  | [], _ :: _, h => by cases h
  | _ :: _, [], h => by cases h
  | d :: ds, d' :: ds', h => by
    simp only [List.map_cons, List.cons.injEq] at h
    rw [digitChar_inj h.1, digits_inj h.2]

/-- An expression can be regrouped at each of its operations. -/
theorem Plain.regroup {e : Expr} (h : e.Plain) {A B : List Char} {o : Op} (he : e.text = A ++ o.char :: B) :
    ∃ l r, Plain l ∧ Plain r ∧ l.text = A ∧ r.text = B ∧ ∀ P, e.Numbers P → l.Numbers P ∧ r.Numbers P := by
  induction e generalizing A B with
  | num ds =>
    have h1 := opCount_digits ds
    rw [show ds.map digitChar = _ from he, opCount_append, opCount_op] at h1
    omega
  | bin o' l' r' ihl ihr =>
    obtain ⟨h1, h2⟩ := h
    have he : l'.text ++ o'.char :: r'.text = A ++ o.char :: B := he
    rcases List.append_eq_append_iff.1 he with ⟨C, e1, e2⟩ | ⟨C, e1, e2⟩
    · -- A = l'.text ++ C
      cases C with
      | nil =>
        simp only [List.nil_append, List.cons.injEq] at e2
        exact ⟨l', r', h1, h2, by simpa using e1.symm, e2.2, fun _ h => h⟩
      | cons ch C =>
        simp only [List.cons_append, List.cons.injEq] at e2
        obtain ⟨l, r, k1, k2, k3, k4, k5⟩ := ihr h2 e2.2
        refine ⟨.bin o' l' l, r, ⟨h1, k1⟩, k2, ?_, k4, fun P h => ⟨⟨h.1, (k5 P h.2).1⟩, (k5 P h.2).2⟩⟩
        rw [e1, ← e2.1, ← k3]
        rfl
    · -- l'.text = A ++ C
      cases C with
      | nil =>
        simp only [List.nil_append, List.cons.injEq] at e2
        exact ⟨l', r', h1, h2, by simpa using e1, e2.2.symm, fun _ h => h⟩
      | cons ch C =>
        simp only [List.cons_append, List.cons.injEq] at e2
        rw [← e2.1] at e1
        obtain ⟨l, r, k1, k2, k3, k4, k5⟩ := ihl h1 e1
        refine ⟨l, .bin o' r r', k1, ⟨k2, h2⟩, k3, ?_, fun P h => ⟨(k5 P h.1).1, (k5 P h.1).2, h.2⟩⟩
        rw [e2.2, ← k4]
        rfl
  | paren => cases h

/-- All ways to group a text have the same numbers. -/
theorem Plain.numbers {e e' : Expr} (h : e.Plain) (h' : e'.Plain) (he : e.text = e'.text) {P : List (Fin 10) → Prop} (hP : e.Numbers P) : e'.Numbers P := by
  induction e' generalizing e with
  | num ds =>
    cases e with
    | num ds' =>
      cases digits_inj he
      exact hP
    | bin o l r =>
      have := opCount_bin o l r
      rw [he, show (num ds).text = ds.map digitChar from rfl, opCount_digits] at this
      omega
    | paren => cases h
  | bin o l r ihl ihr =>
    obtain ⟨l', r', k1, k2, k3, k4, k5⟩ := h.regroup he
    exact ⟨ihl k1 h'.1 k3 (k5 P hP).1, ihr k2 h'.2 k4 (k5 P hP).2⟩
  | paren => cases h'

/-- With at most one operation there is one way to group. -/
theorem Plain.unique {e e' : Expr} (h : e.Plain) (h' : e'.Plain) (he : e.text = e'.text) (h1 : opCount e.text ≤ 1) : e = e' := by
  have leaf : ∀ {e : Expr}, e.Plain → opCount e.text = 0 → ∃ ds, e = .num ds := by
    intro e h h0
    cases e with
    | num ds => exact ⟨ds, rfl⟩
    | bin => rw [opCount_bin] at h0; omega
    | paren => cases h
  have zero : ∀ {e e' : Expr}, e.Plain → e'.Plain → e.text = e'.text → opCount e.text = 0 → e = e' := by
    intro e e' h h' he h0
    obtain ⟨ds, rfl⟩ := leaf h h0
    obtain ⟨ds', rfl⟩ := leaf h' (he ▸ h0)
    rw [digits_inj he]
  cases e with
  | num ds => exact zero h h' he (opCount_digits ds)
  | paren => cases h
  | bin o l r =>
    cases e' with
    | num ds =>
      rw [he] at h1
      have h2 := opCount_bin o l r
      rw [he, show (num ds).text = ds.map digitChar from rfl, opCount_digits] at h2
      omega
    | paren => cases h'
    | bin o' l' r' =>
      have c1 := opCount_bin o l r
      have c2 := opCount_bin o' l' r'
      rw [← he] at c2
      have he : l.text ++ o.char :: r.text = l'.text ++ o'.char :: r'.text := he
      have key : l.text = l'.text ∧ o.char = o'.char ∧ r.text = r'.text := by
        rcases List.append_eq_append_iff.1 he with ⟨C, e1, e2⟩ | ⟨C, e1, e2⟩
        · cases C with
          | nil =>
            simp only [List.nil_append, List.cons.injEq] at e2
            exact ⟨by simpa using e1.symm, e2.1, e2.2⟩
          | cons ch C =>
            simp only [List.cons_append, List.cons.injEq] at e2
            rw [e1, ← e2.1, opCount_append, opCount_op] at c2
            omega
        · cases C with
          | nil =>
            simp only [List.nil_append, List.cons.injEq] at e2
            exact ⟨by simpa using e1, e2.1.symm, e2.2.symm⟩
          | cons ch C =>
            simp only [List.cons_append, List.cons.injEq] at e2
            rw [e1, ← e2.1, opCount_append, opCount_op] at c1
            omega
      rw [opChar_inj key.2.1, zero h.1 h'.1 key.1 (by omega), zero h.2 h'.2 key.2.2 (by omega)]

end Expr
end Gearley.Spec

namespace Gearley.Calculator.Ambiguous
open Gearley.Spec Gearley.Props
open Gearley.Calculator.Precedenced (tokInput_mem prefix_one prefix_cons prefix_append)

/-- The token for a character. -/
def tok (c : Char) : Nat := 3 + chars.idxOf c

/-- The number of the rule for an operation. -/
def opRule : Op → Nat
  | .add => 2
  | .sub => 3
  | .mul => 4
  | .div => 5

/-- The tree of a number. -/
def numTree : Nat → List (Fin 10) → UTree
  | _, [] => .empty 2
  | i, [d] => .node (7 + 2 * d) [.leaf (7 + d) (i % 2 ^ 32)]
  | i, d :: ds => .node (6 + 2 * d) [.leaf (7 + d) (i % 2 ^ 32), numTree (i + 1) ds]

/-- The tree of an operation. -/
def opTree (o : Op) (i : Nat) : UTree := .node (opRule o) [.leaf (tok o.char) (i % 2 ^ 32)]

/-- The tree of an expression that begins at position `i`. -/
def tree : Expr → Nat → UTree
  | .num ds, i => .node 1 [numTree i ds]
  | .bin o l r, i => .node 0 [tree l i, opTree o (i + l.text.length), tree r (i + l.text.length + 1)]
  | .paren _, _ => .empty 0

theorem grammar_cases {k A : Nat} {rhs : List Nat} (h : grammar[k]? = some (A, rhs)) :
    (k = 0 ∧ A = 0 ∧ rhs = [0, 1, 0]) ∨ (k = 1 ∧ A = 0 ∧ rhs = [2]) ∨ (∃ o : Op, k = opRule o ∧ A = 1 ∧ rhs = [tok o.char]) ∨
    (∃ d : Fin 10, k = 6 + 2 * d.val ∧ A = 2 ∧ rhs = [7 + d.val, 2]) ∨ (∃ d : Fin 10, k = 7 + 2 * d.val ∧ A = 2 ∧ rhs = [7 + d.val]) := by
  have hk : k < 26 := (List.getElem?_eq_some_iff.1 h).1
  have key : ∀ k : Fin 26, ∀ p ∈ grammar[k.val]?, (k.val = 0 ∧ p.1 = 0 ∧ p.2 = [0, 1, 0]) ∨ (k.val = 1 ∧ p.1 = 0 ∧ p.2 = [2]) ∨
      ((k.val = 2 ∧ p.1 = 1 ∧ p.2 = [3]) ∨ (k.val = 3 ∧ p.1 = 1 ∧ p.2 = [4]) ∨ (k.val = 4 ∧ p.1 = 1 ∧ p.2 = [5]) ∨ (k.val = 5 ∧ p.1 = 1 ∧ p.2 = [6])) ∨
      (∃ d : Fin 10, k.val = 6 + 2 * d.val ∧ p.1 = 2 ∧ p.2 = [7 + d.val, 2]) ∨ (∃ d : Fin 10, k.val = 7 + 2 * d.val ∧ p.1 = 2 ∧ p.2 = [7 + d.val]) := by
    decide +kernel
  rcases key ⟨k, hk⟩ (A, rhs) h with h1 | h1 | (h1 | h1 | h1 | h1) | h1 | h1
  · exact .inl h1
  · exact .inr (.inl h1)
  · exact .inr (.inr (.inl ⟨.add, h1⟩))
  · exact .inr (.inr (.inl ⟨.sub, h1⟩))
  · exact .inr (.inr (.inl ⟨.mul, h1⟩))
  · exact .inr (.inr (.inl ⟨.div, h1⟩))
  · exact .inr (.inr (.inr (.inl h1)))
  · exact .inr (.inr (.inr (.inr h1)))

theorem grammar_op (o : Op) : grammar[opRule o]? = some (1, [tok o.char]) := by
  cases o <;> decide +kernel

theorem grammar_digit (d : Fin 10) : grammar[6 + 2 * d.val]? = some (2, [7 + d.val, 2]) ∧ grammar[7 + 2 * d.val]? = some (2, [7 + d.val]) := by
  revert d
  decide +kernel

theorem grammar_zero : grammar[0]? = some (0, [0, 1] ++ [0]) := by decide +kernel
theorem grammar_one : grammar[1]? = some (0, [] ++ [2]) := by decide +kernel

theorem tok_digit (d : Fin 10) : tok (Expr.digitChar d) = 7 + d.val := by
  revert d
  decide +kernel

theorem tok_op (o : Op) : 3 ≤ tok o.char ∧ tok o.char < 7 := by
  cases o <;> decide +kernel

theorem not_nullable (s : Nat) : ¬ UNullable grammar s := by
  intro h
  induction h with
  | @rule k A rhs hk _ ih =>
    rcases grammar_cases hk with ⟨_, _, rfl⟩ | ⟨_, _, rfl⟩ | ⟨o, _, _, rfl⟩ | ⟨d, _, _, rfl⟩ | ⟨d, _, _, rfl⟩
    all_goals exact ih _ (List.mem_cons_self ..)

/-! ### Every tree is the tree of an expression -/

/-- What a tree of the symbol `A` over the positions `i .. j` is. -/
def Is (toks : List Nat) (u : UTree) (A i j : Nat) : Prop :=
  (A = 0 → ∃ e : Expr, e.Plain ∧ e.text.map tok <+: toks.drop i ∧ j = i + e.text.length ∧ u = tree e i) ∧
  (A = 1 → ∃ o : Op, toks[i]? = some (tok o.char) ∧ j = i + 1 ∧ u = opTree o i) ∧
  (A = 2 → ∃ ds : List (Fin 10), ds ≠ [] ∧ (ds.map Expr.digitChar).map tok <+: toks.drop i ∧ j = i + ds.length ∧ u = numTree i ds) ∧
  (3 ≤ A → toks[i]? = some A ∧ j = i + 1 ∧ u = .leaf A (i % 2 ^ 32))

theorem is_of_tree {toks : List Nat} : ∀ (u : UTree) {A i j : Nat}, (∀ t ∈ toks, 3 ≤ t) → UTreeOf grammar (tokInput toks) u A i j → Is toks u A i j
  | .leaf a v, A, i, j, ht, h => by
    cases h with
    | leaf hm =>
      obtain ⟨h1, rfl⟩ := tokInput_mem hm
      have h4 := ht _ (List.mem_of_getElem? h1)
      exact ⟨fun h => by omega, fun h => by omega, fun h => by omega, fun _ => ⟨h1, rfl, rfl⟩⟩
  | .empty s, A, i, j, _, h => by
    cases h with
    | empty hn => exact absurd hn (not_nullable _)
  | .node k kids, A, i, j, ht, h => by
    cases h with
    | @node _ _ _ _ rhs _ hk hkids _ =>
    have hsz : ∀ t ∈ kids, sizeOf t < 1 + sizeOf k + sizeOf kids := fun t ht => by
      have := List.sizeOf_lt_of_mem ht
      omega
    have kid : ∀ {t : UTree}, t ∈ kids → ∀ {A i j : Nat}, UTreeOf grammar (tokInput toks) t A i j → Is toks t A i j :=
      fun {t} hmem {A i j} h => have := hsz t hmem; is_of_tree t ht h
    rcases grammar_cases hk with ⟨rfl, rfl, rfl⟩ | ⟨rfl, rfl, rfl⟩ | ⟨o, rfl, rfl, rfl⟩ | ⟨d, rfl, rfl, rfl⟩ | ⟨d, rfl, rfl, rfl⟩
    · cases hkids with
      | cons t1 hk2 =>
      cases hk2 with
      | cons t2 hk3 =>
      cases hk3 with
      | cons t3 hk4 =>
      cases hk4
      obtain ⟨l, l1, l3, l4, l5⟩ := (kid (by simp) t1).1 rfl
      obtain ⟨o, m1, m2, m3⟩ := (kid (by simp) t2).2.1 rfl
      obtain ⟨r, r1, r3, r4, r5⟩ := (kid (by simp) t3).1 rfl
      subst l4 m2 r4 l5 m3 r5
      refine ⟨fun _ => ⟨.bin o l r, ⟨l1, r1⟩, ?_, ?_, rfl⟩, fun h => by omega, fun h => by omega, fun h => by omega⟩
      · simp only [Expr.text, List.map_append, List.map_cons]
        rw [prefix_append, prefix_cons, List.length_map]
        exact ⟨l3, m1, r3⟩
      · simp only [Expr.text, List.length_append, List.length_cons]
        omega
    · cases hkids with
      | cons t1 hk2 =>
      cases hk2
      obtain ⟨ds, h1, h2, h3, h4⟩ := (kid (by simp) t1).2.2.1 rfl
      subst h4 h3
      refine ⟨fun _ => ⟨.num ds, h1, h2, ?_, rfl⟩, fun h => by omega, fun h => by omega, fun h => by omega⟩
      simp [Expr.text]
    · cases hkids with
      | cons t1 hk2 =>
      cases hk2
      obtain ⟨m1, m2, m3⟩ := (kid (by simp) t1).2.2.2 (tok_op o).1
      subst m2 m3
      exact ⟨fun h => by omega, fun _ => ⟨o, m1, rfl, rfl⟩, fun h => by omega, fun h => by omega⟩
    · cases hkids with
      | cons t1 hk2 =>
      cases hk2 with
      | cons t2 hk3 =>
      cases hk3
      obtain ⟨m1, m2, m3⟩ := (kid (by simp) t1).2.2.2 (by omega)
      obtain ⟨ds, h1, h2, h3, h4⟩ := (kid (by simp) t2).2.2.1 rfl
      subst m2 m3 h4 h3
      refine ⟨fun h => by omega, fun h => by omega, fun _ => ⟨d :: ds, by simp, ?_, ?_, ?_⟩, fun h => by omega⟩
      · rw [List.map_cons, List.map_cons, prefix_cons, tok_digit]
        exact ⟨m1, h2⟩
      · rw [List.length_cons]
        omega
      · cases ds with
        | nil => exact absurd rfl h1
        | cons => rfl
    · cases hkids with
      | cons t1 hk2 =>
      cases hk2
      obtain ⟨m1, m2, m3⟩ := (kid (by simp) t1).2.2.2 (by omega)
      subst m2 m3
      refine ⟨fun h => by omega, fun h => by omega, fun _ => ⟨[d], by simp, ?_, rfl, rfl⟩, fun h => by omega⟩
      rw [List.map_cons, List.map_cons, tok_digit]
      exact prefix_one m1
termination_by u => sizeOf u

/-! ### Every expression has its tree -/

theorem leaf_mem {toks : List Nat} {a i : Nat} (h : toks[i]? = some a) : (a, i % 2 ^ 32) ∈ tokInput toks i := by
  unfold tokInput
  rw [h]
  exact List.mem_singleton.2 rfl

theorem tree_num {toks : List Nat} : ∀ {ds : List (Fin 10)} {i : Nat}, ds ≠ [] → (ds.map Expr.digitChar).map tok <+: toks.drop i →
    UTreeOf grammar (tokInput toks) (numTree i ds) 2 i (i + ds.length)
  | [], _, h, _ => absurd rfl h
  | [d], i, _, h => by
    rw [List.map_cons, List.map_cons, prefix_cons, tok_digit] at h
    exact .node (grammar_digit d).2 (.cons (.leaf (leaf_mem h.1)) .nil) (by simp)
  | d :: d' :: ds, i, _, h => by
    rw [List.map_cons, List.map_cons, prefix_cons, tok_digit] at h
    have ih := tree_num (ds := d' :: ds) (by simp) h.2
    refine .node (grammar_digit d).1 (.cons (.leaf (leaf_mem h.1)) (.cons ih ?_)) (by simp)
    rw [show i + 1 + (d' :: ds).length = i + (d :: d' :: ds).length by simp only [List.length_cons]; omega]
    exact .nil

theorem tree_op {toks : List Nat} {o : Op} {i : Nat} (h : toks[i]? = some (tok o.char)) : UTreeOf grammar (tokInput toks) (opTree o i) 1 i (i + 1) :=
  .node (grammar_op o) (.cons (.leaf (leaf_mem h)) .nil) (by omega)

theorem text_pos {e : Expr} (he : e.Plain) : 0 < e.text.length := List.length_pos_iff.2 he.ne_nil

theorem tree_of_expr {toks : List Nat} : ∀ {e : Expr} {i : Nat}, e.Plain → e.text.map tok <+: toks.drop i →
    UTreeOf grammar (tokInput toks) (tree e i) 0 i (i + e.text.length) := by
  intro e
  induction e with
  | num ds =>
    intro i he h
    have hl : i + (Expr.num ds).text.length = i + ds.length := by simp [Expr.text]
    rw [hl]
    have : 0 < ds.length := List.length_pos_iff.2 he
    exact .node grammar_one (.cons (tree_num he h) .nil) (by omega)
  | bin o l r ihl ihr =>
    intro i he h
    obtain ⟨h1, h2⟩ := he
    simp only [Expr.text, List.map_append, List.map_cons] at h
    rw [prefix_append, prefix_cons, List.length_map] at h
    have hr := text_pos h2
    refine .node grammar_zero (.cons (ihl h1 h.1) (.cons (tree_op h.2.1) (.cons (ihr h2 h.2.2) ?_))) (by simp only [Expr.text, List.length_append, List.length_cons]; omega)
    rw [show i + l.text.length + 1 + r.text.length = i + (Expr.bin o l r).text.length by simp only [Expr.text, List.length_append, List.length_cons]; omega]
    exact .nil
  | paren e ih =>
    intro i he
    cases he

/-! ### Characters and tokens -/

theorem text_chars {e : Expr} (he : e.Plain) : ∀ c ∈ e.text, c ∈ chars := by
  induction e with
  | num ds =>
    intro c hc
    obtain ⟨d, _, rfl⟩ := List.mem_map.1 hc
    have : ∀ d : Fin 10, Expr.digitChar d ∈ chars := by decide +kernel
    exact this d
  | bin o l r ihl ihr =>
    intro c hc
    simp only [Expr.text, List.mem_append, List.mem_cons] at hc
    rcases hc with h | rfl | h
    · exact ihl he.1 c h
    · cases o <;> decide
    · exact ihr he.2 c h
  | paren e ih => cases he

theorem tok_inj {a b : Char} (ha : a ∈ chars) (h : tok a = tok b) : a = b := by
  unfold tok at h
  have h : chars.idxOf a = chars.idxOf b := by omega
  have h1 := List.idxOf_lt_length_iff.2 ha
  have h2 := List.idxOf_lt_length_iff.2 (show b ∈ chars from List.idxOf_lt_length_iff.1 (h ▸ h1))
  have e1 := List.getElem_idxOf h1
  have e2 := List.getElem_idxOf h2
  rw [← e1, ← e2]
  simp only [h]

theorem map_tok_inj : ∀ {s t : List Char}, (∀ c ∈ s, c ∈ chars) → s.map tok = t.map tok → s = t := by
  intro s
  induction s with
  | nil => intro t _ h; exact (List.map_eq_nil_iff.1 h.symm).symm
  | cons a s ih =>
    intro t hs h
    cases t with
    | nil => cases h
    | cons b t =>
      simp only [List.map_cons, List.cons.injEq] at h
      rw [tok_inj (hs a (by simp)) h.1, ih (fun c hc => hs c (by simp [hc])) h.2]

/-- Two texts at the same place of the same length are the same. -/
theorem text_at {toks : List Nat} {i : Nat} {s t : List Char} (hs : ∀ c ∈ s, c ∈ chars) (h : s.map tok <+: toks.drop i) (h' : t.map tok <+: toks.drop i)
    (hl : s.length = t.length) : s = t :=
  map_tok_inj hs ((List.prefix_of_prefix_length_le h h' (by simp [hl])).eq_of_length (by simp [hl]))

/-- The trees over the text of an expression are those of all ways to group it. -/
theorem trees_iff {toks : List Nat} (ht : ∀ t ∈ toks, 3 ≤ t) {i : Nat} {s : List Char} (hs : ∀ c ∈ s, c ∈ chars) (h : s.map tok <+: toks.drop i) (u : UTree) :
    UTreeOf grammar (tokInput toks) u 0 i (i + s.length) ↔ ∃ e : Expr, e.Plain ∧ e.text = s ∧ u = tree e i := by
  constructor
  · intro hu
    obtain ⟨e, h1, h2, h3, h4⟩ := (is_of_tree u ht hu).1 rfl
    exact ⟨e, h1, (text_at hs h h2 (by omega)).symm, h4⟩
  · rintro ⟨e, h1, rfl, rfl⟩
    exact tree_of_expr h1 h

theorem numTree_inj : ∀ {ds ds' : List (Fin 10)} {i : Nat}, numTree i ds = numTree i ds' → ds = ds'
  | [], [], _, _ => rfl
  | [], [_], _, h => by simp [numTree] at h
  | [], _ :: _ :: _, _, h => by simp [numTree] at h
  | [_], [], _, h => by simp [numTree] at h
  | [d], [d'], _, h => by
    simp only [numTree, UTree.node.injEq] at h
    rw [Fin.ext (by omega : d.val = d'.val)]
  | [d], d' :: _ :: _, _, h => by
    simp only [numTree, UTree.node.injEq] at h
    omega
  | _ :: _ :: _, [], _, h => by simp [numTree] at h
  | d :: _ :: _, [d'], _, h => by
    simp only [numTree, UTree.node.injEq] at h
    omega
  | d :: x :: xs, d' :: y :: ys, i, h => by
    have h1 : UTree.node (6 + 2 * d) [.leaf (7 + d) (i % 2 ^ 32), numTree (i + 1) (x :: xs)] =
      UTree.node (6 + 2 * d') [.leaf (7 + d') (i % 2 ^ 32), numTree (i + 1) (y :: ys)] := h
    simp only [UTree.node.injEq, List.cons.injEq, and_true] at h1
    rw [Fin.ext (by omega : d.val = d'.val), numTree_inj h1.2.2]

theorem tree_inj : ∀ {e e' : Expr} {i : Nat}, e.Plain → e'.Plain → tree e i = tree e' i → e = e' := by
  intro e
  induction e with
  | num ds =>
    intro e' i h h' he
    cases e' with
    | num ds' =>
      simp only [tree, UTree.node.injEq, List.cons.injEq, and_true, true_and] at he
      rw [numTree_inj he]
    | bin => simp [tree] at he
    | paren => cases h'
  | bin o l r ihl ihr =>
    intro e' i h h' he
    cases e' with
    | num => simp [tree] at he
    | bin o' l' r' =>
      simp only [tree, UTree.node.injEq, List.cons.injEq, and_true, true_and, opTree] at he
      have e1 := ihl h.1 h'.1 he.1
      subst e1
      have e2 := ihr h.2 h'.2 he.2.2
      subst e2
      have : o = o' := by
        have := he.2.1.1
        cases o <;> cases o' <;> simp [opRule] at this <;> rfl
      rw [this]
    | paren => cases h'
  | paren => intro e' i h; cases h

/-! ### The alternatives -/

/-- The pairs of a rule and the start of its last symbol. -/
theorem alts_iff {toks : List Nat} (ht : ∀ t ∈ toks, 3 ≤ t) {i : Nat} {e : Expr} (he : e.Plain) (h : e.text.map tok <+: toks.drop i) (k p : Nat) :
    (∃ ss y ts t, grammar[k]? = some (0, ss ++ [y]) ∧ UKids grammar (tokInput toks) ts ss i p ∧ UTreeOf grammar (tokInput toks) t y p (i + e.text.length)) ↔
      (k = 0 ∧ ∃ l o r, Expr.Plain l ∧ Expr.Plain r ∧ e.text = (Expr.bin o l r).text ∧ p = i + l.text.length + 1) ∨
      (k = 1 ∧ p = i ∧ opCount e.text = 0) := by
  constructor
  · rintro ⟨ss, y, ts, t, hk, h1, h2⟩
    rcases grammar_cases hk with ⟨rfl, _, e1⟩ | ⟨rfl, _, e1⟩ | ⟨_, _, h, _⟩ | ⟨_, _, h, _⟩ | ⟨_, _, h, _⟩
    · obtain ⟨rfl, rfl⟩ := List.append_singleton_inj (bs := [0, 1]) |>.1 e1
      have hij : i < i + e.text.length := by have := text_pos he; omega
      obtain ⟨e', k1, k2, k3⟩ := (trees_iff ht (text_chars he) h _).1 (.node hk (h1.append (.cons h2 .nil)) hij)
      cases e' with
      | num => simp [tree] at k3
      | paren => cases k1
      | bin o l r =>
        refine .inl ⟨rfl, l, o, r, k1.1, k1.2, k2.symm, ?_⟩
        simp only [tree, UTree.node.injEq, true_and] at k3
        rw [show [tree l i, opTree o (i + l.text.length), tree r (i + l.text.length + 1)] =
          [tree l i, opTree o (i + l.text.length)] ++ [tree r (i + l.text.length + 1)] from rfl] at k3
        obtain ⟨rfl, rfl⟩ := List.append_singleton_inj |>.1 k3
        rw [← k2] at h
        simp only [Expr.text, List.map_append, List.map_cons] at h
        rw [prefix_append, prefix_cons, List.length_map] at h
        exact UKids.span h1 (.cons (tree_of_expr k1.1 h.1) (.cons (tree_op h.2.1) .nil))
    · obtain ⟨rfl, rfl⟩ := List.append_singleton_inj (bs := []) |>.1 e1
      cases h1
      refine .inr ⟨rfl, rfl, ?_⟩
      have hij : i < i + e.text.length := by have := text_pos he; omega
      obtain ⟨e', k1, k2, k3⟩ := (trees_iff ht (text_chars he) h _).1 (.node hk (.cons h2 .nil) hij)
      cases e' with
      | num ds =>
        rw [← k2]
        exact opCount_digits ds
      | paren => cases k1
      | bin => simp [tree] at k3
    all_goals simp at h
  · rintro (⟨rfl, l, o, r, h1, h2, h3, rfl⟩ | ⟨rfl, rfl, h0⟩)
    · rw [h3] at h ⊢
      simp only [Expr.text, List.map_append, List.map_cons] at h
      rw [prefix_append, prefix_cons, List.length_map] at h
      refine ⟨[0, 1], 0, _, tree r (i + l.text.length + 1), grammar_zero, .cons (tree_of_expr h1 h.1) (.cons (tree_op h.2.1) .nil), ?_⟩
      rw [show i + (Expr.bin o l r).text.length = i + l.text.length + 1 + r.text.length by simp only [Expr.text, List.length_append, List.length_cons]; omega]
      exact tree_of_expr h2 h.2.2
    · cases e with
      | num ds =>
        rw [show p + (Expr.num ds).text.length = p + ds.length by simp [Expr.text]]
        exact ⟨[], 2, [], _, grammar_one, .nil, tree_num he h⟩
      | bin o l r => rw [Expr.opCount_bin] at h0; omega
      | paren => cases he

/-- An operation stands for one token. -/
theorem op_tree {toks : List Nat} (ht : ∀ t ∈ toks, 3 ≤ t) {o : Op} {i : Nat} (h : toks[i]? = some (tok o.char)) (u : UTree) :
    UTreeOf grammar (tokInput toks) u 1 i (i + 1) ↔ u = opTree o i := by
  constructor
  · intro hu
    obtain ⟨o', h1, _, rfl⟩ := (is_of_tree u ht hu).2.1 rfl
    rw [h] at h1
    have : o = o' := by
      have := Option.some.inj h1
      revert this
      cases o <;> cases o' <;> decide
    rw [this]
  · rintro rfl
    exact tree_op h

theorem no_leaf {toks : List Nat} (ht : ∀ t ∈ toks, 3 ≤ t) {A i : Nat} (hA : A < 3) (v : Nat) : (A, v) ∉ tokInput toks i := by
  intro h
  have := ht _ (List.mem_of_getElem? (tokInput_mem h).1)
  omega

end Gearley.Calculator.Ambiguous
