import Verif.Model.Calculator
import Verif.Proofs.Arithmetic
import Verif.Proofs.UserExists

/-! # The trees of the calculator's grammar are the arithmetic expressions -/

namespace Gearley.Calculator.Precedenced
open Gearley.Spec Gearley.Props

/-- The token for a character. -/
def tok (c : Char) : Nat := 4 + chars.idxOf c

/-- The number of the rule for an operation. -/
def opRule : Op → Nat
  | .add => 0
  | .sub => 1
  | .mul => 3
  | .div => 4

/-- The tree of a number. -/
def numTree : Nat → List (Fin 10) → UTree
  | _, [] => .empty 3
  | i, [d] => .node (9 + 2 * d) [.leaf (10 + d) (i % 2 ^ 32)]
  | i, d :: ds => .node (8 + 2 * d) [.leaf (10 + d) (i % 2 ^ 32), numTree (i + 1) ds]

/-- Use an expression of level `n` where level `k` is required. -/
def lift (k n : Nat) (t : UTree) : UTree :=
  match k with
  | 0 => if n = 0 then t else .node 2 [if n = 1 then t else .node 5 [t]]
  | 1 => if n = 1 then t else .node 5 [t]
  | _ => t

/-- The tree of an expression that begins at position `i`. -/
def tree : Expr → Nat → UTree
  | .num ds, i => .node 7 [numTree i ds]
  | .bin o l r, i => .node (opRule o) [lift o.level l.level (tree l i), .leaf (tok o.char) ((i + l.text.length) % 2 ^ 32),
      lift (o.level + 1) r.level (tree r (i + l.text.length + 1))]
  | .paren e, i => .node 6 [.leaf 8 (i % 2 ^ 32), lift 0 e.level (tree e (i + 1)), .leaf 9 ((i + 1 + e.text.length) % 2 ^ 32)]

theorem grammar_cases {k A : Nat} {rhs : List Nat} (h : grammar[k]? = some (A, rhs)) :
    (∃ o : Op, k = opRule o ∧ A = o.level ∧ rhs = [o.level, tok o.char, o.level + 1]) ∨
    (k = 2 ∧ A = 0 ∧ rhs = [1]) ∨ (k = 5 ∧ A = 1 ∧ rhs = [2]) ∨ (k = 6 ∧ A = 2 ∧ rhs = [8, 0, 9]) ∨ (k = 7 ∧ A = 2 ∧ rhs = [3]) ∨
    (∃ d : Fin 10, k = 8 + 2 * d.val ∧ A = 3 ∧ rhs = [10 + d.val, 3]) ∨ (∃ d : Fin 10, k = 9 + 2 * d.val ∧ A = 3 ∧ rhs = [10 + d.val]) := by
  have hk : k < 28 := (List.getElem?_eq_some_iff.1 h).1
  have key : ∀ k : Fin 28, ∀ p ∈ grammar[k.val]?, (p.1 = 0 ∧ (k.val = 0 ∧ p.2 = [0, 4, 1] ∨ k.val = 1 ∧ p.2 = [0, 5, 1])) ∨
      (p.1 = 1 ∧ (k.val = 3 ∧ p.2 = [1, 6, 2] ∨ k.val = 4 ∧ p.2 = [1, 7, 2])) ∨
      (k.val = 2 ∧ p.1 = 0 ∧ p.2 = [1]) ∨ (k.val = 5 ∧ p.1 = 1 ∧ p.2 = [2]) ∨ (k.val = 6 ∧ p.1 = 2 ∧ p.2 = [8, 0, 9]) ∨ (k.val = 7 ∧ p.1 = 2 ∧ p.2 = [3]) ∨
      (∃ d : Fin 10, k.val = 8 + 2 * d.val ∧ p.1 = 3 ∧ p.2 = [10 + d.val, 3]) ∨ (∃ d : Fin 10, k.val = 9 + 2 * d.val ∧ p.1 = 3 ∧ p.2 = [10 + d.val]) := by
    decide +kernel
  rcases key ⟨k, hk⟩ (A, rhs) h with ⟨h1, h2 | h2⟩ | ⟨h1, h2 | h2⟩ | h1 | h1 | h1 | h1 | h1 | h1
  · exact .inl ⟨.add, h2.1, h1, h2.2⟩
  · exact .inl ⟨.sub, h2.1, h1, h2.2⟩
  · exact .inl ⟨.mul, h2.1, h1, h2.2⟩
  · exact .inl ⟨.div, h2.1, h1, h2.2⟩
  · exact .inr (.inl h1)
  · exact .inr (.inr (.inl h1))
  · exact .inr (.inr (.inr (.inl h1)))
  · exact .inr (.inr (.inr (.inr (.inl h1))))
  · exact .inr (.inr (.inr (.inr (.inr (.inl h1)))))
  · exact .inr (.inr (.inr (.inr (.inr (.inr h1)))))

theorem grammar_op (o : Op) : grammar[opRule o]? = some (o.level, [o.level, tok o.char, o.level + 1]) := by
  cases o <;> decide +kernel

theorem grammar_digit (d : Fin 10) : grammar[8 + 2 * d.val]? = some (3, [10 + d.val, 3]) ∧ grammar[9 + 2 * d.val]? = some (3, [10 + d.val]) := by
  revert d
  decide +kernel

theorem tok_digit (d : Fin 10) : tok (Expr.digitChar d) = 10 + d.val := by
  revert d
  decide +kernel

theorem tok_op (o : Op) : 4 ≤ tok o.char ∧ tok o.char < 8 := by
  cases o <;> decide +kernel

theorem not_nullable (s : Nat) : ¬ UNullable grammar s := by
  intro h
  induction h with
  | @rule k A rhs hk _ ih =>
    rcases grammar_cases hk with ⟨o, _, _, rfl⟩ | ⟨_, _, rfl⟩ | ⟨_, _, rfl⟩ | ⟨_, _, rfl⟩ | ⟨_, _, rfl⟩ | ⟨d, _, _, rfl⟩ | ⟨d, _, _, rfl⟩
    all_goals exact ih _ (List.mem_cons_self ..)

/-! ### Parts of the input -/

theorem tokInput_mem {toks : List Nat} {a v i : Nat} (h : (a, v) ∈ tokInput toks i) : toks[i]? = some a ∧ v = i % 2 ^ 32 := by
  unfold tokInput at h
  cases ht : toks[i]? with
  | none => rw [ht] at h; cases h
  | some t =>
    rw [ht] at h
    simp only [List.mem_singleton, Prod.mk.injEq] at h
    rw [h.1, h.2]
    exact ⟨rfl, rfl⟩

theorem prefix_one {toks : List Nat} {a i : Nat} (h : toks[i]? = some a) : [a] <+: toks.drop i := by
  obtain ⟨hi, rfl⟩ := List.getElem?_eq_some_iff.1 h
  rw [List.drop_eq_getElem_cons hi]
  exact ⟨_, rfl⟩

theorem prefix_cons {toks u : List Nat} {a i : Nat} : a :: u <+: toks.drop i ↔ toks[i]? = some a ∧ u <+: toks.drop (i + 1) := by
  constructor
  · rintro ⟨v, hv⟩
    have hi : i < toks.length := by
      have := congrArg List.length hv
      simp at this
      omega
    rw [List.drop_eq_getElem_cons hi, List.cons_append, List.cons.injEq] at hv
    exact ⟨by rw [List.getElem?_eq_getElem hi, hv.1], ⟨v, hv.2⟩⟩
  · rintro ⟨h, ⟨v, hv⟩⟩
    obtain ⟨hi, rfl⟩ := List.getElem?_eq_some_iff.1 h
    rw [List.drop_eq_getElem_cons hi]
    exact ⟨v, by rw [← hv]; rfl⟩

theorem prefix_append {toks u v : List Nat} {i : Nat} : u ++ v <+: toks.drop i ↔ u <+: toks.drop i ∧ v <+: toks.drop (i + u.length) := by
  induction u generalizing i with
  | nil => simp
  | cons a u ih =>
    rw [List.cons_append, prefix_cons, prefix_cons, ih, and_assoc, List.length_cons, Nat.add_assoc, Nat.add_comm 1]

/-! ### Every tree is the tree of an expression -/

/-- What a tree of the symbol `A` over the positions `i .. j` is. -/
def Is (toks : List Nat) (u : UTree) (A i j : Nat) : Prop :=
  (A ≤ 2 → ∃ e : Expr, e.Grouped ∧ A ≤ e.level ∧ e.text.map tok <+: toks.drop i ∧ j = i + e.text.length ∧ u = lift A e.level (tree e i)) ∧
  (A = 3 → ∃ ds : List (Fin 10), ds ≠ [] ∧ (ds.map Expr.digitChar).map tok <+: toks.drop i ∧ j = i + ds.length ∧ u = numTree i ds) ∧
  (4 ≤ A → toks[i]? = some A ∧ j = i + 1 ∧ u = .leaf A (i % 2 ^ 32))

theorem level_le (e : Expr) : e.level ≤ 2 := by
  cases e with
  | num | paren => exact Nat.le_refl _
  | bin o _ _ => exact Nat.le_of_lt (Expr.op_level_lt o)

theorem lift_up {n : Nat} {t : UTree} (h1 : 1 ≤ n) : lift 0 n t = .node 2 [lift 1 n t] := by
  unfold lift
  rw [if_neg (by omega)]
  rfl

theorem lift_up1 {t : UTree} {n : Nat} (h : n = 2) : lift 1 n t = .node 5 [lift 2 n t] := by
  subst h
  rfl

theorem lift_self {n : Nat} {t : UTree} (h : n ≤ 2) : lift n n t = t := by
  unfold lift
  match n, h with
  | 0, _ => rfl
  | 1, _ => rfl
  | 2, _ => rfl

theorem is_of_tree {toks : List Nat} : ∀ (u : UTree) {A i j : Nat}, (∀ t ∈ toks, 4 ≤ t) → UTreeOf grammar (tokInput toks) u A i j → Is toks u A i j
  | .leaf a v, A, i, j, ht, h => by
    cases h with
    | leaf hm =>
      obtain ⟨h1, rfl⟩ := tokInput_mem hm
      have h4 := ht _ (List.mem_of_getElem? h1)
      exact ⟨fun h => by omega, fun h => by omega, fun _ => ⟨h1, rfl, rfl⟩⟩
  | .empty s, A, i, j, _, h => by
    cases h with
    | empty hn => exact absurd hn (not_nullable _)
  | .node k kids, A, i, j, ht, h => by
    cases h with
    | @node _ _ _ _ rhs _ hk hkids _ =>
    have hsz : ∀ t ∈ kids, sizeOf t < 1 + sizeOf k + sizeOf kids := fun t ht => by
      have := List.sizeOf_lt_of_mem ht
      omega
    have kid : ∀ {t : UTree}, t ∈ kids → ∀ {A i j : Nat}, UTreeOf grammar (tokInput toks) t A i j → Is toks t A i j :=
      fun {t} hmem {A i j} h => have := hsz t hmem; is_of_tree t ht h
    rcases grammar_cases hk with ⟨o, rfl, rfl, rfl⟩ | ⟨rfl, rfl, rfl⟩ | ⟨rfl, rfl, rfl⟩ | ⟨rfl, rfl, rfl⟩ | ⟨rfl, rfl, rfl⟩ | ⟨d, rfl, rfl, rfl⟩ | ⟨d, rfl, rfl, rfl⟩
    · have hol := Expr.op_level_lt o
      cases hkids with
      | cons t1 hk2 =>
      cases hk2 with
      | cons t2 hk3 =>
      cases hk3 with
      | cons t3 hk4 =>
      cases hk4
      obtain ⟨l, l1, l2, l3, l4, l5⟩ := (kid (by simp) t1).1 (by omega)
      obtain ⟨m1, m2, m3⟩ := (kid (by simp) t2).2.2 (tok_op o).1
      obtain ⟨r, r1, r2, r3, r4, r5⟩ := (kid (by simp) t3).1 (by omega)
      subst l4 m2 r4 l5 m3 r5
      refine ⟨fun _ => ⟨.bin o l r, ⟨l1, r1, l2, r2⟩, Nat.le_refl _, ?_, ?_, ?_⟩, fun h => by omega, fun h => by omega⟩
      · simp only [Expr.text, List.map_append, List.map_cons]
        rw [prefix_append, prefix_cons, List.length_map]
        exact ⟨l3, m1, r3⟩
      · simp only [Expr.text, List.length_append, List.length_cons]
        omega
      · rw [show (Expr.bin o l r).level = o.level from rfl, lift_self (by omega)]
        rfl
    · cases hkids with
      | cons t1 hk2 =>
      cases hk2
      obtain ⟨e, h1, h2, h3, h4, h5⟩ := (kid (by simp) t1).1 (by omega)
      exact ⟨fun _ => ⟨e, h1, by omega, h3, h4, by rw [h5, lift_up h2]⟩, fun h => by omega, fun h => by omega⟩
    · cases hkids with
      | cons t1 hk2 =>
      cases hk2
      obtain ⟨e, h1, h2, h3, h4, h5⟩ := (kid (by simp) t1).1 (by omega)
      have := level_le e
      exact ⟨fun _ => ⟨e, h1, by omega, h3, h4, by rw [h5, lift_up1 (by omega)]⟩, fun h => by omega, fun h => by omega⟩
    · cases hkids with
      | cons t1 hk2 =>
      cases hk2 with
      | cons t2 hk3 =>
      cases hk3 with
      | cons t3 hk4 =>
      cases hk4
      obtain ⟨m1, m2, m3⟩ := (kid (by simp) t1).2.2 (by omega)
      obtain ⟨e, h1, h2, h3, h4, h5⟩ := (kid (by simp) t2).1 (by omega)
      obtain ⟨n1, n2, n3⟩ := (kid (by simp) t3).2.2 (by omega)
      subst m2 m3 h4 h5 n2 n3
      refine ⟨fun _ => ⟨.paren e, h1, Nat.le_refl _, ?_, ?_, rfl⟩, fun h => by omega, fun h => by omega⟩
      · simp only [Expr.text, List.map_append, List.map_cons, List.map_nil]
        rw [prefix_cons, prefix_append, List.length_map]
        exact ⟨m1, h3, prefix_one n1⟩
      · simp only [Expr.text, List.length_append, List.length_cons, List.length_nil]
        omega
    · cases hkids with
      | cons t1 hk2 =>
      cases hk2
      obtain ⟨ds, h1, h2, h3, h4⟩ := (kid (by simp) t1).2.1 rfl
      subst h4 h3
      refine ⟨fun _ => ⟨.num ds, h1, Nat.le_refl _, h2, ?_, rfl⟩, fun h => by omega, fun h => by omega⟩
      simp [Expr.text]
    · cases hkids with
      | cons t1 hk2 =>
      cases hk2 with
      | cons t2 hk3 =>
      cases hk3
      obtain ⟨m1, m2, m3⟩ := (kid (by simp) t1).2.2 (by omega)
      obtain ⟨ds, h1, h2, h3, h4⟩ := (kid (by simp) t2).2.1 rfl
      subst m2 m3 h4 h3
      refine ⟨fun h => by omega, fun _ => ⟨d :: ds, by simp, ?_, ?_, ?_⟩, fun h => by omega⟩
      · rw [List.map_cons, List.map_cons, prefix_cons, tok_digit]
        exact ⟨m1, h2⟩
      · rw [List.length_cons]
        omega
      · cases ds with
        | nil => exact absurd rfl h1
        | cons => rfl
    · cases hkids with
      | cons t1 hk2 =>
      cases hk2
      obtain ⟨m1, m2, m3⟩ := (kid (by simp) t1).2.2 (by omega)
      subst m2 m3
      refine ⟨fun h => by omega, fun _ => ⟨[d], by simp, ?_, rfl, rfl⟩, fun h => by omega⟩
      rw [List.map_cons, List.map_cons, tok_digit]
      exact prefix_one m1
termination_by u => sizeOf u

/-! ### Every expression has its tree -/

theorem leaf_tree {toks : List Nat} {a i : Nat} (h : toks[i]? = some a) : UTreeOf grammar (tokInput toks) (.leaf a (i % 2 ^ 32)) a i (i + 1) := by
  refine .leaf ?_
  unfold tokInput
  rw [h]
  exact List.mem_singleton.2 rfl

theorem tree_num {toks : List Nat} : ∀ {ds : List (Fin 10)} {i : Nat}, ds ≠ [] → (ds.map Expr.digitChar).map tok <+: toks.drop i →
    UTreeOf grammar (tokInput toks) (numTree i ds) 3 i (i + ds.length)
  | [], _, h, _ => absurd rfl h
  | [d], i, _, h => by
    rw [List.map_cons, List.map_cons, prefix_cons, tok_digit] at h
    exact .node (grammar_digit d).2 (.cons (leaf_tree h.1) .nil) (by simp)
  | d :: d' :: ds, i, _, h => by
    rw [List.map_cons, List.map_cons, prefix_cons, tok_digit] at h
    have ih := tree_num (ds := d' :: ds) (by simp) h.2
    refine .node (grammar_digit d).1 (.cons (leaf_tree h.1) (.cons ih ?_)) (by simp)
    rw [show i + 1 + (d' :: ds).length = i + (d :: d' :: ds).length by simp only [List.length_cons]; omega]
    exact .nil

theorem tree_lift {inp : Input} {k n i j : Nat} {t : UTree} (hn : n ≤ 2) (hk : k ≤ n) (hij : i < j) (h : UTreeOf grammar inp t n i j) :
    UTreeOf grammar inp (lift k n t) k i j := by
  have h5 : ∀ {t : UTree}, UTreeOf grammar inp t 2 i j → UTreeOf grammar inp (.node 5 [t]) 1 i j := fun h =>
    .node (k := 5) (rhs := [2]) (by decide +kernel) (.cons h .nil) hij
  have h2 : ∀ {t : UTree}, UTreeOf grammar inp t 1 i j → UTreeOf grammar inp (.node 2 [t]) 0 i j := fun h =>
    .node (k := 2) (rhs := [1]) (by decide +kernel) (.cons h .nil) hij
  have hc : (k = 0 ∧ n = 0) ∨ (k = 0 ∧ n = 1) ∨ (k = 0 ∧ n = 2) ∨ (k = 1 ∧ n = 1) ∨ (k = 1 ∧ n = 2) ∨ (k = 2 ∧ n = 2) := by omega
  rcases hc with ⟨rfl, rfl⟩ | ⟨rfl, rfl⟩ | ⟨rfl, rfl⟩ | ⟨rfl, rfl⟩ | ⟨rfl, rfl⟩ | ⟨rfl, rfl⟩
  · exact h
  · exact h2 h
  · exact h2 (h5 h)
  · exact h
  · exact h5 h
  · exact h

theorem text_pos {e : Expr} (he : e.Grouped) : 0 < e.text.length := List.length_pos_iff.2 (Expr.text_ne_nil he)

theorem tree_of_expr {toks : List Nat} : ∀ {e : Expr} {i : Nat}, e.Grouped → e.text.map tok <+: toks.drop i →
    UTreeOf grammar (tokInput toks) (tree e i) e.level i (i + e.text.length) := by
  intro e
  induction e with
  | num ds =>
    intro i he h
    have hl : i + (Expr.num ds).text.length = i + ds.length := by simp [Expr.text]
    rw [hl]
    have : 0 < ds.length := List.length_pos_iff.2 he
    exact .node (k := 7) (A := 2) (rhs := [3]) (by decide +kernel) (.cons (tree_num he h) .nil) (by omega)
  | bin o l r ihl ihr =>
    intro i he h
    obtain ⟨h1, h2, h3, h4⟩ := he
    simp only [Expr.text, List.map_append, List.map_cons] at h
    rw [prefix_append, prefix_cons, List.length_map] at h
    have hr := text_pos h2
    have hl := text_pos h1
    refine .node (grammar_op o) (.cons (tree_lift (level_le l) h3 (by omega) (ihl h1 h.1)) (.cons (leaf_tree h.2.1)
      (.cons (tree_lift (level_le r) h4 (by omega) (ihr h2 h.2.2)) ?_))) (by simp only [Expr.text, List.length_append]; omega)
    rw [show i + l.text.length + 1 + r.text.length = i + (Expr.bin o l r).text.length by simp only [Expr.text, List.length_append, List.length_cons]; omega]
    exact .nil
  | paren e ih =>
    intro i he h
    simp only [Expr.text, List.map_append, List.map_cons, List.map_nil] at h
    rw [prefix_cons, prefix_append, prefix_cons, List.length_map] at h
    have hl := text_pos (show e.Grouped from he)
    refine .node (k := 6) (A := 2) (rhs := [8, 0, 9]) (by decide +kernel) (.cons (leaf_tree h.1)
      (.cons (tree_lift (level_le e) (Nat.zero_le _) (by omega) (ih he h.2.1)) (.cons (leaf_tree h.2.2.1) ?_))) (by simp only [Expr.text, List.length_cons]; omega)
    rw [show i + 1 + e.text.length + 1 = i + (Expr.paren e).text.length by simp only [Expr.text, List.length_append, List.length_cons, List.length_nil]; omega]
    exact .nil

/-! ### Characters and tokens -/

theorem text_chars (e : Expr) : ∀ c ∈ e.text, c ∈ chars := by
  induction e with
  | num ds =>
    intro c hc
    obtain ⟨d, _, rfl⟩ := List.mem_map.1 hc
    have : ∀ d : Fin 10, Expr.digitChar d ∈ chars := by decide +kernel
    exact this d
  | bin o l r ihl ihr =>
    intro c hc
    simp only [Expr.text, List.mem_append, List.mem_cons] at hc
    rcases hc with h | rfl | h
    · exact ihl c h
    · cases o <;> decide
    · exact ihr c h
  | paren e ih =>
    intro c hc
    simp only [Expr.text, List.mem_append, List.mem_cons, List.not_mem_nil, or_false] at hc
    rcases hc with rfl | h | rfl
    · decide
    · exact ih c h
    · decide

theorem tok_inj {a b : Char} (ha : a ∈ chars) (h : tok a = tok b) : a = b := by
  unfold tok at h
  have h : chars.idxOf a = chars.idxOf b := by omega
  have h1 := List.idxOf_lt_length_iff.2 ha
  have h2 := List.idxOf_lt_length_iff.2 (show b ∈ chars from List.idxOf_lt_length_iff.1 (h ▸ h1))
  have e1 := List.getElem_idxOf h1
  have e2 := List.getElem_idxOf h2
  rw [← e1, ← e2]
  simp only [h]

theorem map_tok_inj : ∀ {s t : List Char}, (∀ c ∈ s, c ∈ chars) → s.map tok = t.map tok → s = t := by
  intro s
  induction s with
  | nil => intro t _ h; exact (List.map_eq_nil_iff.1 h.symm).symm
  | cons a s ih =>
    intro t hs h
    cases t with
    | nil => cases h
    | cons b t =>
      simp only [List.map_cons, List.cons.injEq] at h
      rw [tok_inj (hs a (by simp)) h.1, ih (fun c hc => hs c (by simp [hc])) h.2]

/-- The trees over the whole text of an expression: there is one. -/
theorem tree_unique {e : Expr} (he : e.Grouped) (u : UTree) :
    UTreeOf grammar (tokInput (e.text.map tok)) u 0 0 (e.text.map tok).length ↔ u = lift 0 e.level (tree e 0) := by
  constructor
  · intro h
    obtain ⟨e', h1, _, h3, h4, h5⟩ := (is_of_tree u (by
      intro t ht
      obtain ⟨c, _, rfl⟩ := List.mem_map.1 ht
      exact Nat.le_add_right _ _) h).1 (by omega)
    rw [List.drop_zero] at h3
    have hlen : (e'.text.map tok).length = (e.text.map tok).length := by
      rw [h4, List.length_map]
      omega
    have := map_tok_inj (text_chars e') (h3.eq_of_length hlen)
    rw [h5, Expr.text_inj h1 he this]
  · rintro rfl
    have := tree_of_expr (toks := e.text.map tok) (i := 0) he (by simp)
    rw [Nat.zero_add] at this
    rw [List.length_map]
    exact tree_lift (level_le e) (Nat.zero_le _) (text_pos he) this

/-- The strings of tokens derived from `sum` are the texts of expressions. -/
theorem tree_iff {toks : List Nat} (ht : ∀ t ∈ toks, 4 ≤ t) :
    (∃ u, UTreeOf grammar (tokInput toks) u 0 0 toks.length) ↔ ∃ e : Expr, e.Grouped ∧ e.text.map tok = toks := by
  constructor
  · rintro ⟨u, h⟩
    obtain ⟨e, h1, _, h3, h4, _⟩ := (is_of_tree u ht h).1 (by omega)
    refine ⟨e, h1, (List.drop_zero ▸ h3).eq_of_length ?_⟩
    rw [List.length_map]
    omega
  · rintro ⟨e, he, rfl⟩
    exact ⟨_, (tree_unique he _).2 rfl⟩

end Gearley.Calculator.Precedenced
