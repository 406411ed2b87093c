import Verif.Spec.User

/-! # Trees of the binarized grammar and trees of the user's grammar -/

namespace Gearley.Spec
open Gearley
variable {U : URules} {N : Names U} {w : WrappedRoot} {g0 : Nat} {c : Cfg} {info : ForestInfo} {inp : Input}

/-- The empty trees of the symbols that `s` stands for. -/
def emptyKids (N : Names U) (s : Nat) : List UTree :=
  match N.parts s with
  | none => [.empty s]
  | some (k, j) => match U[k]? with
    | some (_, rhs) => (rhs.take j).map .empty
    | none => []

/-- The evaluator that builds trees. -/
def treeEval : Evaluator UTree where
  leaf := .leaf
  product := .node
  nulling s rs := rs ++ [.empty s]
  dflt := .empty 0

/-- The user's tree of a binarized tree. -/
def flat (N : Names U) (info : ForestInfo) (t : PTree) : List UTree := treeVals info treeEval (emptyKids N) t

theorem uvals_append {α : Type} (E : Evaluator α) (nul : Nat → α) (a b : List UTree) :
    uvals E nul (a ++ b) = uvals E nul a ++ uvals E nul b := by
  induction a with
  | nil => rfl
  | cons t ts ih => simp only [List.cons_append, uvals, ih]

theorem uvals_map_empty {α : Type} (E : Evaluator α) (nul : Nat → α) (l : List Nat) :
    uvals E nul (l.map .empty) = l.map nul := by
  induction l with
  | nil => rfl
  | cons t ts ih => simp only [List.map_cons, uvals, uval, ih]

/-! ### Rules -/

theorem Names.pre_one (N : Names U) (k s : Nat) (rhs : List Nat) : N.pre k (s :: rhs) 1 = s := rfl

theorem Names.pre_ge (N : Names U) (k : Nat) (rhs : List Nat) {j : Nat} (h : 2 ≤ j) : N.pre k rhs j = N.name k j := by
  unfold Names.pre
  rw [if_neg (by omega)]

/-- The rule at an index, its number and its removed symbol. -/
theorem rule_at (he : info.eval = c.rules.map (·.origin)) (hn : info.nullingEliminated = c.rules.map (·.nullable)) {d : Nat}
    {q : Rule} (h : (rulesOf c)[d]? = some q) : ∃ r, c.rules[d]? = some r ∧ r ∈ c.rules ∧ ruleOf r = q ∧
      info.origin d = r.origin ∧ info.removed d = r.nullable := by
  unfold rulesOf at h
  rw [List.getElem?_map, Option.map_eq_some_iff] at h
  obtain ⟨r, h1, h2⟩ := h
  refine ⟨r, h1, List.mem_of_getElem? h1, h2, ?_, ?_⟩
  · unfold ForestInfo.origin
    rw [he, List.getElem?_map, h1]
    rfl
  · unfold ForestInfo.removed
    rw [hn, List.getElem?_map, h1]
    rfl

theorem bare_index (hb : (c.rules.map bare).Nodup) {d d' : Nat} {r r' : CfgRule} (h : c.rules[d]? = some r)
    (h' : c.rules[d']? = some r') (e : bare r = bare r') : d = d' := by
  have h1 : (c.rules.map bare)[d]? = some (bare r) := by rw [List.getElem?_map, h]; rfl
  have h2 : (c.rules.map bare)[d']? = some (bare r) := by rw [List.getElem?_map, h', e]; rfl
  have hl : d < (c.rules.map bare).length := (List.getElem?_eq_some_iff.1 h1).1
  exact (List.getElem?_inj hl hb).1 (h1.trans h2.symm)

/-! ### Lists of subtrees -/

theorem UKids.append {ts ts' : List UTree} {ss ss' : List Nat} {i k j : Nat} (h : UKids U inp ts ss i k)
    (h' : UKids U inp ts' ss' k j) : UKids U inp (ts ++ ts') (ss ++ ss') i j := by
  induction ts generalizing ss i with
  | nil => cases h; exact h'
  | cons t ts ih =>
    cases h with
    | cons h1 h2 => exact .cons h1 (ih h2)

theorem UKids.empties {ss : List Nat} (h : ∀ s ∈ ss, UNullable U s) (i : Nat) : UKids U inp (ss.map .empty) ss i i := by
  induction ss with
  | nil => exact .nil
  | cons s ss ih => exact .cons (.empty (h s (by simp))) (ih fun s' hs => h s' (by simp [hs]))

theorem UKids.length {ts : List UTree} {ss : List Nat} {i j : Nat} (h : UKids U inp ts ss i j) : ts.length = ss.length := by
  induction ts generalizing ss i with
  | nil => cases h; rfl
  | cons t ts ih =>
    cases h with
    | cons h1 h2 => simp [ih h2]

mutual
theorem UTreeOf.le {t : UTree} {A i j : Nat} (h : UTreeOf U inp t A i j) : i ≤ j :=
  match h with
  | .leaf _ => by omega
  | .empty _ => by omega
  | .node _ _ h => by omega
theorem UKids.le {ts : List UTree} {ss : List Nat} {i j : Nat} (h : UKids U inp ts ss i j) : i ≤ j :=
  match h with
  | .nil => by omega
  | .cons h1 h2 => by have := h1.le; have := h2.le; omega
end

def UTree.isEmpty : UTree → Bool
  | .empty _ => true
  | _ => false

theorem UTreeOf.notEmpty {t : UTree} {A i j : Nat} (h : UTreeOf U inp t A i j) (hij : i < j) : t.isEmpty = false := by
  cases h with
  | leaf _ => rfl
  | empty _ => omega
  | node _ _ _ => rfl

theorem UTreeOf.eq_empty {t : UTree} {A i j : Nat} (h : UTreeOf U inp t A i j) (hj : i = j) : t = .empty A ∧ UNullable U A := by
  cases h with
  | leaf _ => omega
  | empty h => exact ⟨rfl, h⟩
  | node _ _ _ => omega

theorem UKids.notEmpty {ts : List UTree} {ss : List Nat} {i j : Nat} (h : UKids U inp ts ss i j) (hij : i < j) :
    ∃ t ∈ ts, t.isEmpty = false := by
  induction ts generalizing ss i with
  | nil => cases h; omega
  | cons t ts ih =>
    cases h with
    | @cons _ s _ k _ _ ss h1 h2 =>
      by_cases hk : i < k
      · exact ⟨t, by simp, h1.notEmpty hk⟩
      · have := h1.le
        obtain ⟨t', h3, h4⟩ := ih h2 (by omega)
        exact ⟨t', by simp [h3], h4⟩

theorem UKids.eq_empties {ts : List UTree} {ss : List Nat} {i : Nat} (h : UKids U inp ts ss i i) :
    ts = ss.map .empty ∧ ∀ s ∈ ss, UNullable U s := by
  induction ts generalizing ss with
  | nil => cases h; exact ⟨rfl, by simp⟩
  | cons t ts ih =>
    cases h with
    | @cons _ s _ k _ _ ss h1 h2 =>
      have e1 := h1.le
      have e2 := h2.le
      have : k = i := by omega
      subst this
      obtain ⟨rfl, hs⟩ := h1.eq_empty rfl
      obtain ⟨rfl, hss⟩ := ih h2
      exact ⟨rfl, by simpa using ⟨hs, hss⟩⟩

theorem take_snoc {α : Type} {l : List α} {j : Nat} {y : α} (h : l[j]? = some y) : l.take (j + 1) = l.take j ++ [y] := by
  rw [List.take_add_one, h]
  rfl

/-! ### The shape of a binarized tree -/

/-- Symbols that belong to the user's grammar or to its binarization, not to the wrapping. -/
def Inner (w : WrappedRoot) (g0 A : Nat) : Prop := A ≠ w.root ∧ A ≠ g0

theorem Binarizes.inner_user (hb : Binarizes U N w g0 c) {r : Nat × List Nat} (hr : r ∈ U) {s : Nat} (hs : s ∈ r.2) : Inner w g0 s :=
  ⟨fun e => ((hb.fresh w.root (.inl rfl)).2 r hr).2 (e ▸ hs), fun e => ((hb.fresh g0 (.inr (.inl rfl))).2 r hr).2 (e ▸ hs)⟩

theorem Binarizes.inner_pre (hb : Binarizes U N w g0 c) {k A j : Nat} {rhs : List Nat} (hk : U[k]? = some (A, rhs)) (h1 : 1 ≤ j)
    (h2 : j < rhs.length) : Inner w g0 (N.pre k rhs j) := by
  by_cases hj : j = 1
  · subst hj
    cases rhs with
    | nil => simp at h2
    | cons s rhs => exact hb.inner_user (List.mem_of_getElem? hk) (by simp [Names.pre_one])
  · rw [N.pre_ge k rhs (by omega)]
    have hp := N.parts_name k A rhs j hk (by omega) h2
    constructor <;> intro e
    · rw [e, (hb.fresh _ (.inl rfl)).1] at hp; cases hp
    · rw [e, (hb.fresh _ (.inr (.inl rfl))).1] at hp; cases hp

/-- The rule for the first `j + 1` symbols of rule `k`. -/
def stepRule (N : Names U) (k A : Nat) (rhs : List Nat) (j : Nat) (right : List Nat) (nullable : Option (Nat × Bool)) : CfgRule :=
  { lhs := if j + 1 = rhs.length then A else N.name k (j + 1), rhs := right,
    origin := if j + 1 = rhs.length then some k else none, nullable := nullable }

/-- A tree for the beginning of rule `k` with `j + 1` symbols, or for the whole rule: its last step, and its subtrees in the
user's grammar. -/
inductive Step1 (U : URules) (N : Names U) (c : Cfg) (info : ForestInfo) (inp : Input) (k A : Nat) (rhs : List Nat) (j y : Nat) :
    PTree → List UTree → Nat → Nat → Prop
  | both {d i e f : Nat} {l r : PTree} {q : CfgRule} : c.rules[d]? = some q →
      bare q = stepRule N k A rhs j [N.pre k rhs j, y] none →
      TreeOf (rulesOf c) inp l (N.pre k rhs j) i e → TreeOf (rulesOf c) inp r y e f →
      Step1 U N c info inp k A rhs j y (.node d (.pair l r)) (flat N info l ++ flat N info r) i f
  | dropRight {d i f : Nat} {l : PTree} {q : CfgRule} : c.rules[d]? = some q →
      bare q = stepRule N k A rhs j [N.pre k rhs j] (some (y, true)) →
      UNullable U y → TreeOf (rulesOf c) inp l (N.pre k rhs j) i f →
      Step1 U N c info inp k A rhs j y (.node d l) (flat N info l ++ [.empty y]) i f
  | dropLeft {d i f : Nat} {r : PTree} {q : CfgRule} : c.rules[d]? = some q →
      bare q = stepRule N k A rhs j [y] (some (N.pre k rhs j, false)) →
      (∀ s ∈ rhs.take j, UNullable U s) → TreeOf (rulesOf c) inp r y i f →
      Step1 U N c info inp k A rhs j y (.node d r) ((rhs.take j).map .empty ++ flat N info r) i f

/-- The flattened tree of a rule application. -/
def wrapKids (k : Nat) (rhs : List Nat) (j : Nat) (kids : List UTree) : List UTree :=
  if j + 1 = rhs.length then [.node k kids] else kids

theorem applyRule_wrap {d k j : Nat} {rhs : List Nat} (h : info.origin d = if j + 1 = rhs.length then some k else none) (kids : List UTree) :
    applyRule info treeEval d kids = wrapKids k rhs j kids := by
  unfold applyRule wrapKids
  rw [h]
  by_cases hl : j + 1 = rhs.length
  · simp only [if_pos hl]; rfl
  · simp only [if_neg hl]

theorem emptyKids_user {s : Nat} (h : N.parts s = none) : emptyKids N s = [.empty s] := by
  unfold emptyKids
  rw [h]

theorem emptyKids_pre {k A j : Nat} {rhs : List Nat} (hk : U[k]? = some (A, rhs)) (h1 : 1 ≤ j) (h2 : j < rhs.length) :
    emptyKids N (N.pre k rhs j) = (rhs.take j).map .empty := by
  by_cases hj : j = 1
  · subst hj
    cases rhs with
    | nil => simp at h2
    | cons s rhs =>
      rw [Names.pre_one, emptyKids_user ((N.user _ (List.mem_of_getElem? hk)).2 s (by simp))]
      rfl
  · rw [N.pre_ge k rhs (by omega)]
    unfold emptyKids
    rw [N.parts_name k A rhs j hk (by omega) h2]
    simp only [hk]

theorem flat_node {d : Nat} {f : PTree} {R : Rules} {B i j : Nat} (hf : TreeOf R inp f B i j) :
    flat N info (.node d f) = applyRule info treeEval d (match info.removed d with
      | none => flat N info f
      | some (s, true) => flat N info f ++ emptyKids N s
      | some (s, false) => emptyKids N s ++ flat N info f) := by
  cases hf <;> rfl

theorem getElem?_lt {α : Type} {l : List α} {j : Nat} {y : α} (h : l[j]? = some y) : j < l.length :=
  (List.getElem?_eq_some_iff.1 h).1

/-- Every tree is a token, a rule with one symbol, or a step of a longer rule. -/
theorem Binarizes.shape (hb : Binarizes U N w g0 c) (he : info.eval = c.rules.map (·.origin))
    (hn : info.nullingEliminated = c.rules.map (·.nullable)) {t : PTree} {A i j : Nat} (ht : TreeOf (rulesOf c) inp t A i j)
    (hA : Inner w g0 A) :
    (∃ v, t = .leaf A v ∧ (A, v) ∈ inp i ∧ j = i + 1) ∨
    (∃ d q k s f, t = .node d f ∧ U[k]? = some (A, [s]) ∧ TreeOf (rulesOf c) inp f s i j ∧ c.rules[d]? = some q ∧
      bare q = { lhs := A, rhs := [s], origin := some k, nullable := none } ∧ flat N info t = [.node k (flat N info f)]) ∨
    (∃ k A' rhs m y kids, U[k]? = some (A', rhs) ∧ 1 ≤ m ∧ rhs[m]? = some y ∧
      A = (if m + 1 = rhs.length then A' else N.name k (m + 1)) ∧ Step1 U N c info inp k A' rhs m y t kids i j ∧
      flat N info t = wrapKids k rhs m kids) := by
  have hexp : ∀ r ∈ c.rules, r.lhs = A → Expected U N r := by
    intro r hr h
    rcases hb.sound r hr with h' | h' | h'
    · exact absurd (h.symm.trans h') hA.1
    · exact absurd (h.symm.trans h') hA.2
    · exact h'
  cases ht with
  | leaf h => exact .inl ⟨_, rfl, h, rfl⟩
  | @unary d _ B f _ _ hr hf =>
    obtain ⟨r, h1, h2, h3, h4, h5⟩ := rule_at he hn hr
    have h6 := hexp r h2 (by rw [← show (ruleOf r).lhs = A by rw [h3]]; rfl)
    cases h6 with
    | single hk =>
      simp only [ruleOf, List.headD_cons, Rule.mk.injEq] at h3
      obtain ⟨rfl, rfl, _⟩ := h3
      refine .inr (.inl ⟨d, _, _, _, f, rfl, hk, hf, h1, rfl, ?_⟩)
      rw [flat_node hf, h5]
      simp only [applyRule, h4]
      rfl
    | both => simp [ruleOf] at h3
    | @dropRight k A' m y rhs dots hk hm hy hny =>
      simp only [ruleOf, List.headD_cons, Rule.mk.injEq] at h3
      obtain ⟨rfl, rfl, _⟩ := h3
      refine .inr (.inr ⟨k, A', rhs, m, y, _, hk, hm, hy, rfl, .dropRight h1 rfl hny hf, ?_⟩)
      rw [flat_node hf, h5, applyRule_wrap h4]
      simp only
      rw [emptyKids_user ((N.user _ (List.mem_of_getElem? hk)).2 y (List.mem_of_getElem? hy))]
    | @dropLeft k A' m y rhs dots hk hm hy hny =>
      simp only [ruleOf, List.headD_cons, Rule.mk.injEq] at h3
      obtain ⟨rfl, rfl, _⟩ := h3
      refine .inr (.inr ⟨k, A', rhs, m, y, _, hk, hm, hy, rfl, .dropLeft h1 rfl hny hf, ?_⟩)
      rw [flat_node hf, h5, applyRule_wrap h4]
      simp only
      rw [emptyKids_pre hk hm (getElem?_lt hy)]
  | @binary d _ B C l r' _ e _ hr hl hr' =>
    obtain ⟨r, h1, h2, h3, h4, h5⟩ := rule_at he hn hr
    have h6 := hexp r h2 (by rw [← show (ruleOf r).lhs = A by rw [h3]]; rfl)
    cases h6 with
    | single => simp [ruleOf] at h3
    | @both k A' m y rhs dots hk hm hy =>
      simp only [ruleOf, List.headD_cons, List.getElem?_cons_succ, List.getElem?_cons_zero, Option.some.injEq, Rule.mk.injEq] at h3
      obtain ⟨rfl, rfl, rfl⟩ := h3
      refine .inr (.inr ⟨k, A', rhs, m, y, _, hk, hm, hy, rfl, .both h1 rfl hl hr', ?_⟩)
      show applyRule info treeEval d (flat N info l ++ flat N info r') = _
      rw [applyRule_wrap h4]
    | dropRight => simp [ruleOf] at h3
    | dropLeft => simp [ruleOf] at h3

/-! ### Values and costs -/

theorem UTree.sizes_append (a b : List UTree) : UTree.sizes (a ++ b) = UTree.sizes a + UTree.sizes b := by
  induction a with
  | nil => simp [UTree.sizes]
  | cons t ts ih => simp only [List.cons_append, UTree.sizes, ih]; omega

theorem UTree.sizes_empty (l : List Nat) : UTree.sizes (l.map .empty) = l.length := by
  induction l with
  | nil => rfl
  | cons t ts ih => simp only [List.map_cons, UTree.sizes, UTree.size, ih, List.length_cons]; omega

theorem treeVals_node {α : Type} {E : Evaluator α} {nv : Nat → List α} {d : Nat} {f : PTree} {R : Rules} {B i j : Nat} (hf : TreeOf R inp f B i j) :
    treeVals info E nv (.node d f) = applyRule info E d (match info.removed d with
      | none => treeVals info E nv f
      | some (s, true) => treeVals info E nv f ++ nv s
      | some (s, false) => nv s ++ treeVals info E nv f) := by
  cases hf <;> rfl

theorem treeCost_node {nc : Nat → Nat} {d : Nat} {f : PTree} {R : Rules} {B i j : Nat} (hf : TreeOf R inp f B i j) (h : ∀ l r, f ≠ .pair l r) :
    treeCost info nc (.node d f) = treeCost info nc f + (match info.removed d with
      | none => 0
      | some (s, _) => nc s) + 1 := by
  cases hf <;> rfl

theorem TreeOf.not_pair {R : Rules} {f : PTree} {B i j : Nat} (hf : TreeOf R inp f B i j) (l r : PTree) : f ≠ .pair l r := by
  cases hf <;> simp

/-- The values of the empty symbols `s` stands for. -/
def EmptyVals {α : Type} (N : Names U) (E : Evaluator α) (nul : Nat → α) (nv : Nat → List α) (nc : Nat → Nat) (s : Nat) : Prop :=
  nv s = uvals E nul (emptyKids N s) ∧ nc s + 1 ≤ 2 * (emptyKids N s).length

theorem Binarizes.values (hb : Binarizes U N w g0 c) (he : info.eval = c.rules.map (·.origin))
    (hn : info.nullingEliminated = c.rules.map (·.nullable)) {α : Type} {E : Evaluator α} {nul : Nat → α} {nv : Nat → List α} {nc : Nat → Nat}
    (hv : ∀ r ∈ c.rules, Inner w g0 r.lhs → ∀ s b, r.nullable = some (s, b) → EmptyVals N E nul nv nc s) :
    ∀ (t : PTree) {A i j : Nat}, TreeOf (rulesOf c) inp t A i j → Inner w g0 A →
      treeVals info E nv t = uvals E nul (flat N info t) ∧ treeCost info nc t + 1 ≤ 2 * UTree.sizes (flat N info t) := by
  have app : ∀ d (l : List UTree), applyRule info E d (uvals E nul l) = uvals E nul (applyRule info treeEval d l) := by
    intro d l
    unfold applyRule
    cases info.origin d <;> rfl
  have app2 : ∀ d (l : List UTree), UTree.sizes l ≤ UTree.sizes (applyRule info treeEval d l) := by
    intro d l
    unfold applyRule
    cases info.origin d
    · exact Nat.le_refl _
    · simp [UTree.sizes, treeEval, UTree.size]
  intro t
  induction hs : sizeOf t using Nat.strongRecOn generalizing t with
  | ind n ih =>
    intro A i j ht hA
    have hsh := hb.shape he hn ht hA
    cases ht with
    | leaf h => exact ⟨rfl, by simp [treeCost, flat, treeVals, UTree.sizes, UTree.size, treeEval]⟩
    | @unary d _ B f _ _ hr hf =>
      have hB : Inner w g0 B := by
        rcases hsh with ⟨v, h, _⟩ | ⟨d2, q, k, s, f2, h, hk, hf2, hd2, hq, _⟩ | ⟨k, A', rhs, m, y, kids, hk, hm, hy, hA', hst, _⟩
        · cases h
        · cases h
          obtain ⟨r, h1, h2, h3, _⟩ := rule_at he hn hr
          rw [h1] at hd2
          cases hd2
          have : q.rhs = [s] := congrArg CfgRule.rhs hq
          rw [ruleOf, this] at h3
          simp only [List.headD_cons, Rule.mk.injEq] at h3
          rw [← h3.2.1]
          exact hb.inner_user (List.mem_of_getElem? hk) (by simp)
        · generalize hT : PTree.node d f = T at hst
          cases hst with
          | both h1 h2 h3 h4 => cases hT; cases hf
          | @dropRight d2 _ _ l q h1 h2 h3 h4 =>
            cases hT
            obtain ⟨r, h1', h2', h3', _⟩ := rule_at he hn hr
            rw [h1] at h1'
            cases h1'
            have : q.rhs = [N.pre k rhs m] := congrArg CfgRule.rhs h2
            rw [ruleOf, this] at h3'
            simp only [List.headD_cons, Rule.mk.injEq] at h3'
            rw [← h3'.2.1]
            exact hb.inner_pre hk hm (getElem?_lt hy)
          | @dropLeft d2 _ _ l q h1 h2 h3 h4 =>
            cases hT
            obtain ⟨r, h1', h2', h3', _⟩ := rule_at he hn hr
            rw [h1] at h1'
            cases h1'
            have : q.rhs = [y] := congrArg CfgRule.rhs h2
            rw [ruleOf, this] at h3'
            simp only [List.headD_cons, Rule.mk.injEq] at h3'
            rw [← h3'.2.1]
            exact hb.inner_user (List.mem_of_getElem? hk) (List.mem_of_getElem? hy)
      obtain ⟨i1, i2⟩ := ih _ (by rw [← hs]; simp; omega) f rfl hf hB
      obtain ⟨r, h1, h2, h3, h4, h5⟩ := rule_at he hn hr
      have hl : Inner w g0 r.lhs := by
        rw [show r.lhs = A from congrArg Rule.lhs h3]
        exact hA
      rw [treeVals_node hf, flat_node hf, treeCost_node hf (TreeOf.not_pair hf)]
      have key := fun s b (hs : info.removed d = some (s, b)) => hv r h2 hl s b (by rw [← h5, hs])
      rw [← app]
      have hap := app2 d (match info.removed d with
        | none => flat N info f
        | some (s, true) => flat N info f ++ emptyKids N s
        | some (s, false) => emptyKids N s ++ flat N info f)
      have hlen : ∀ s, UTree.sizes (emptyKids N s) = (emptyKids N s).length := by
        intro s
        unfold emptyKids
        split
        · rfl
        · split
          · rw [UTree.sizes_empty, List.length_map]
          · rfl
      rcases hrem : info.removed d with _ | ⟨s, b⟩
      · rw [hrem] at hap
        simp only at hap ⊢
        refine ⟨by rw [i1], ?_⟩
        have hne : info.origin d ≠ none := by
          intro ho
          rcases hsh with ⟨v, h, _⟩ | ⟨d2, q, k, s, f2, h, hk, hf2, hd2, hq, _⟩ | ⟨k, A', rhs, m, y, kids, hk, hm, hy, hA', hst, _⟩
          · cases h
          · cases h
            rw [h1] at hd2
            cases hd2
            rw [h4, show r.origin = some k from congrArg CfgRule.origin hq] at ho
            cases ho
          · generalize hT : PTree.node d f = T at hst
            cases hst with
            | both _ _ h3 h4 => cases hT; cases hf
            | @dropRight d2 _ _ l q h1' h2' h3' h4' =>
              cases hT
              rw [h1] at h1'
              cases h1'
              rw [h5, show r.nullable = some (y, true) from congrArg CfgRule.nullable h2'] at hrem
              cases hrem
            | @dropLeft d2 _ _ l q h1' h2' h3' h4' =>
              cases hT
              rw [h1] at h1'
              cases h1'
              rw [h5, show r.nullable = some (N.pre k rhs m, false) from congrArg CfgRule.nullable h2'] at hrem
              cases hrem
        obtain ⟨id, hid⟩ := Option.ne_none_iff_exists'.1 hne
        simp only [applyRule, hid, UTree.sizes, treeEval, UTree.size]
        omega
      · obtain ⟨k1, k2⟩ := key s b hrem
        rw [hrem] at hap
        have := hlen s
        cases b
        · simp only [UTree.sizes_append] at hap ⊢
          refine ⟨by rw [i1, k1, ← uvals_append], by omega⟩
        · simp only [UTree.sizes_append] at hap ⊢
          refine ⟨by rw [i1, k1, ← uvals_append], by omega⟩
    | @binary d _ B C l r' _ e _ hr hl hr' =>
      have hBC : Inner w g0 B ∧ Inner w g0 C := by
        rcases hsh with ⟨v, h, _⟩ | ⟨d2, q, k, s, f2, h, hk, hf2, hd2, hq, _⟩ | ⟨k, A', rhs, m, y, kids, hk, hm, hy, hA', hst, _⟩
        · cases h
        · cases h; cases hf2
        · generalize hT : PTree.node d (.pair l r') = T at hst
          cases hst with
          | @both d2 _ e2 _ l2 r2 q h1 h2 h3 h4 =>
            cases hT
            obtain ⟨r, h1', h2', h3', _⟩ := rule_at he hn hr
            rw [h1] at h1'
            cases h1'
            have : q.rhs = [N.pre k rhs m, y] := congrArg CfgRule.rhs h2
            rw [ruleOf, this] at h3'
            simp only [List.headD_cons, List.getElem?_cons_succ, List.getElem?_cons_zero, Option.some.injEq, Rule.mk.injEq] at h3'
            rw [← h3'.2.1, ← h3'.2.2]
            exact ⟨hb.inner_pre hk hm (getElem?_lt hy), hb.inner_user (List.mem_of_getElem? hk) (List.mem_of_getElem? hy)⟩
          | dropRight _ _ _ h4 => cases hT; cases h4
          | dropLeft _ _ _ h4 => cases hT; cases h4
      obtain ⟨a1, a2⟩ := ih _ (by rw [← hs]; simp; omega) l rfl hl hBC.1
      obtain ⟨b1, b2⟩ := ih _ (by rw [← hs]; simp; omega) r' rfl hr' hBC.2
      constructor
      · show applyRule info E d (treeVals info E nv l ++ treeVals info E nv r') = uvals E nul (applyRule info treeEval d (flat N info l ++ flat N info r'))
        rw [a1, b1, ← uvals_append, app]
      · show treeCost info nc l + treeCost info nc r' + 1 + 1 ≤ 2 * UTree.sizes (applyRule info treeEval d (flat N info l ++ flat N info r'))
        have := app2 d (flat N info l ++ flat N info r')
        rw [UTree.sizes_append] at this
        omega

/-! ### Soundness -/

/-- What the flattened tree of a symbol is. -/
def FlatOK (U : URules) (N : Names U) (inp : Input) (us : List UTree) (A i j : Nat) : Prop :=
  i < j ∧ match N.parts A with
    | none => ∃ u, us = [u] ∧ UTreeOf U inp u A i j
    | some (k, m) => ∃ A' rhs, U[k]? = some (A', rhs) ∧ UKids U inp us (rhs.take m) i j

theorem FlatOK.user {us : List UTree} {A i j : Nat} (h : FlatOK U N inp us A i j) (hp : N.parts A = none) :
    i < j ∧ ∃ u, us = [u] ∧ UTreeOf U inp u A i j := by
  unfold FlatOK at h
  rw [hp] at h
  exact h

theorem FlatOK.pre {us : List UTree} {k A i j m : Nat} {rhs : List Nat} (hk : U[k]? = some (A, rhs)) (h1 : 1 ≤ m) (h2 : m < rhs.length)
    (h : FlatOK U N inp us (N.pre k rhs m) i j) : i < j ∧ UKids U inp us (rhs.take m) i j := by
  by_cases hm : m = 1
  · subst hm
    cases rhs with
    | nil => simp at h2
    | cons s rhs =>
      rw [Names.pre_one] at h
      obtain ⟨h3, u, rfl, h4⟩ := h.user ((N.user _ (List.mem_of_getElem? hk)).2 s (by simp))
      exact ⟨h3, .cons h4 .nil⟩
  · rw [N.pre_ge k rhs (by omega)] at h
    unfold FlatOK at h
    rw [N.parts_name k A rhs m hk (by omega) h2] at h
    obtain ⟨h3, A', rhs', h4, h5⟩ := h
    rw [hk] at h4
    cases h4
    exact ⟨h3, h5⟩

theorem Binarizes.flat_sound (hb : Binarizes U N w g0 c) (he : info.eval = c.rules.map (·.origin))
    (hn : info.nullingEliminated = c.rules.map (·.nullable)) (hin : ∀ i, ∀ p ∈ inp i, N.parts p.1 = none) :
    ∀ (t : PTree) {A i j : Nat}, TreeOf (rulesOf c) inp t A i j → Inner w g0 A → FlatOK U N inp (flat N info t) A i j := by
  have single : ∀ {k A s : Nat} {f t : PTree} {i j : Nat}, U[k]? = some (A, [s]) →
      FlatOK U N inp (flat N info f) s i j → flat N info t = [.node k (flat N info f)] → FlatOK U N inp (flat N info t) A i j := by
    intro k A s f t i j hk h ht
    have hm := List.mem_of_getElem? hk
    obtain ⟨h3, u, h4, h5⟩ := h.user ((N.user _ hm).2 s (by simp))
    refine ⟨h3, ?_⟩
    rw [(N.user _ hm).1]
    refine ⟨_, ht, .node hk ?_ h3⟩
    rw [h4]
    exact .cons h5 .nil
  have close : ∀ {k A' A m y i j : Nat} {rhs : List Nat} {kids : List UTree} {t : PTree}, U[k]? = some (A', rhs) → 1 ≤ m → rhs[m]? = some y →
      A = (if m + 1 = rhs.length then A' else N.name k (m + 1)) → flat N info t = wrapKids k rhs m kids → i < j →
      UKids U inp kids (rhs.take (m + 1)) i j → FlatOK U N inp (flat N info t) A i j := by
    intro k A' A m y i j rhs kids t hk hm hy hA ht hij hkids
    refine ⟨hij, ?_⟩
    have hlt := getElem?_lt hy
    by_cases hl : m + 1 = rhs.length
    · rw [if_pos hl] at hA
      subst hA
      rw [(N.user _ (List.mem_of_getElem? hk)).1]
      refine ⟨.node k kids, by rw [ht, wrapKids, if_pos hl], .node hk ?_ hij⟩
      rwa [hl, List.take_length] at hkids
    · rw [if_neg hl] at hA
      subst hA
      rw [N.parts_name k A' rhs (m + 1) hk (by omega) (by omega)]
      exact ⟨A', rhs, hk, by rw [ht, wrapKids, if_neg hl]; exact hkids⟩
  intro t
  induction hs : sizeOf t using Nat.strongRecOn generalizing t with
  | ind n ih =>
    intro A i j ht hA
    rcases hb.shape he hn ht hA with ⟨v, rfl, h, rfl⟩ | ⟨d, q, k, s, f, rfl, hk, hf, _, _, hfl⟩ | ⟨k, A', rhs, m, y, kids, hk, hm, hy, hA', hst, hfl⟩
    · refine ⟨by omega, ?_⟩
      rw [hin i _ h]
      exact ⟨_, rfl, .leaf h⟩
    · refine single hk (ih _ ?_ f rfl hf (hb.inner_user (List.mem_of_getElem? hk) (by simp))) hfl
      rw [← hs]; simp; omega
    · have hlt := getElem?_lt hy
      have iy := hb.inner_user (List.mem_of_getElem? hk) (List.mem_of_getElem? hy)
      have ip := hb.inner_pre hk hm hlt
      have py := (N.user _ (List.mem_of_getElem? hk)).2 y (List.mem_of_getElem? hy)
      cases hst with
      | @both d _ e _ l r q h1 h2 hl hr =>
        obtain ⟨a1, a2⟩ := FlatOK.pre hk hm hlt (ih _ (by rw [← hs]; simp; omega) l rfl hl ip)
        obtain ⟨b1, u, b2, b3⟩ := FlatOK.user (ih _ (by rw [← hs]; simp; omega) r rfl hr iy) py
        refine close hk hm hy hA' hfl (by omega) ?_
        rw [take_snoc hy, b2]
        exact a2.append (.cons b3 .nil)
      | @dropRight d _ _ l q h1 h2 h3 hl =>
        obtain ⟨a1, a2⟩ := FlatOK.pre hk hm hlt (ih _ (by rw [← hs]; simp; omega) l rfl hl ip)
        refine close hk hm hy hA' hfl (by omega) ?_
        rw [take_snoc hy]
        exact a2.append (.cons (.empty h3) .nil)
      | @dropLeft d _ _ r q h1 h2 h3 hr =>
        obtain ⟨b1, u, b2, b3⟩ := FlatOK.user (ih _ (by rw [← hs]; simp; omega) r rfl hr iy) py
        refine close hk hm hy hA' hfl (by omega) ?_
        rw [take_snoc hy, b2]
        exact (UKids.empties h3 _).append (.cons b3 .nil)

/-! ### Different trees have different user's trees -/

theorem Binarizes.flat_inj (hb : Binarizes U N w g0 c) (he : info.eval = c.rules.map (·.origin))
    (hn : info.nullingEliminated = c.rules.map (·.nullable)) (hin : ∀ i, ∀ p ∈ inp i, N.parts p.1 = none) :
    ∀ (t : PTree) {A i j : Nat}, TreeOf (rulesOf c) inp t A i j → Inner w g0 A → ∀ (t' : PTree) {i' j' : Nat},
      TreeOf (rulesOf c) inp t' A i' j' → flat N info t = flat N info t' → t = t' := by
  intro t
  induction hs : sizeOf t using Nat.strongRecOn generalizing t with
  | ind n ih =>
    intro A i j ht hA t' i' j' ht' heq
    have name_user : ∀ {k A' m y : Nat} {rhs : List Nat}, U[k]? = some (A', rhs) → 1 ≤ m → rhs[m]? = some y → ¬ m + 1 = rhs.length →
        N.parts (N.name k (m + 1)) = some (k, m + 1) := by
      intro k A' m y rhs hk hm hy hl
      have := getElem?_lt hy
      exact N.parts_name k A' rhs (m + 1) hk (by omega) (by omega)
    rcases hb.shape he hn ht hA with ⟨v, rfl, h, rfl⟩ | ⟨d, q, k, s, f, rfl, hk, hf, hd, hq, hfl⟩ | ⟨k, A', rhs, m, y, kids, hk, hm, hy, hA', hst, hfl⟩
    · rcases hb.shape he hn ht' hA with ⟨v', rfl, h', rfl⟩ | ⟨d2, q2, k2, s2, f2, rfl, hk2, hf2, hd2, hq2, hfl2⟩ | ⟨k2, A2, rhs2, m2, y2, kids2, hk2, hm2, hy2, hA2, hst2, hfl2⟩
      · have : [UTree.leaf A v] = [UTree.leaf A v'] := heq
        simp only [List.cons.injEq, UTree.leaf.injEq, true_and, and_true] at this
        rw [this]
      · rw [hfl2] at heq
        have : [UTree.leaf A v] = _ := heq
        simp at this
      · rw [hfl2] at heq
        have heq : [UTree.leaf A v] = _ := heq
        unfold wrapKids at heq
        by_cases hl : m2 + 1 = rhs2.length
        · rw [if_pos hl] at heq; simp at heq
        · rw [if_neg hl] at hA2
          have := hin i _ h
          simp only at this
          rw [hA2, name_user hk2 hm2 hy2 hl] at this
          cases this
    · rcases hb.shape he hn ht' hA with ⟨v', rfl, h', rfl⟩ | ⟨d2, q2, k2, s2, f2, rfl, hk2, hf2, hd2, hq2, hfl2⟩ | ⟨k2, A2, rhs2, m2, y2, kids2, hk2, hm2, hy2, hA2, hst2, hfl2⟩
      · rw [hfl] at heq
        have : _ = [UTree.leaf A v'] := heq
        simp at this
      · rw [hfl, hfl2] at heq
        simp only [List.cons.injEq, UTree.node.injEq, and_true] at heq
        obtain ⟨rfl, heq⟩ := heq
        rw [hk] at hk2
        simp only [Option.some.injEq, Prod.mk.injEq, List.cons.injEq, true_and, and_true] at hk2
        subst hk2
        rw [bare_index hb.nodup hd hd2 (hq.trans hq2.symm),
          ih _ (by rw [← hs]; simp; omega) f rfl hf (hb.inner_user (List.mem_of_getElem? hk) (by simp)) f2 hf2 heq]
      · rw [hfl, hfl2] at heq
        unfold wrapKids at heq
        by_cases hl : m2 + 1 = rhs2.length
        · rw [if_pos hl] at heq
          simp only [List.cons.injEq, UTree.node.injEq, and_true] at heq
          rw [← heq.1, hk] at hk2
          simp only [Option.some.injEq, Prod.mk.injEq] at hk2
          rw [← hk2.2] at hl
          simp at hl
          omega
        · rw [if_neg hl] at hA2
          have := (N.user _ (List.mem_of_getElem? hk)).1
          simp only at this
          rw [hA2, name_user hk2 hm2 hy2 hl] at this
          cases this
    · rcases hb.shape he hn ht' hA with ⟨v', rfl, h', rfl⟩ | ⟨d2, q2, k2, s2, f2, rfl, hk2, hf2, hd2, hq2, hfl2⟩ | ⟨k2, A2, rhs2, m2, y2, kids2, hk2, hm2, hy2, hA2, hst2, hfl2⟩
      · rw [hfl] at heq
        have heq : _ = [UTree.leaf A v'] := heq
        unfold wrapKids at heq
        by_cases hl : m + 1 = rhs.length
        · rw [if_pos hl] at heq; simp at heq
        · rw [if_neg hl] at hA'
          have := hin i' _ h'
          simp only at this
          rw [hA', name_user hk hm hy hl] at this
          cases this
      · rw [hfl, hfl2] at heq
        unfold wrapKids at heq
        by_cases hl : m + 1 = rhs.length
        · rw [if_pos hl] at heq
          simp only [List.cons.injEq, UTree.node.injEq, and_true] at heq
          rw [← heq.1, hk] at hk2
          simp only [Option.some.injEq, Prod.mk.injEq] at hk2
          rw [hk2.2] at hl
          simp at hl
          omega
        · rw [if_neg hl] at hA'
          have := (N.user _ (List.mem_of_getElem? hk2)).1
          simp only at this
          rw [hA', name_user hk hm hy hl] at this
          cases this
      · -- the two steps are steps of the same rule
        have same : k = k2 ∧ m = m2 ∧ kids = kids2 := by
          rw [hfl, hfl2] at heq
          unfold wrapKids at heq
          by_cases hl : m + 1 = rhs.length
          · by_cases hl2 : m2 + 1 = rhs2.length
            · rw [if_pos hl, if_pos hl2] at heq
              simp only [List.cons.injEq, UTree.node.injEq, and_true] at heq
              obtain ⟨rfl, h⟩ := heq
              rw [hk] at hk2
              simp only [Option.some.injEq, Prod.mk.injEq] at hk2
              rw [← hk2.2] at hl2
              exact ⟨rfl, by omega, h⟩
            · rw [if_pos hl] at hA'
              rw [if_neg hl2] at hA2
              have := (N.user _ (List.mem_of_getElem? hk)).1
              simp only at this
              rw [← hA', hA2, name_user hk2 hm2 hy2 hl2] at this
              cases this
          · by_cases hl2 : m2 + 1 = rhs2.length
            · rw [if_neg hl] at hA'
              rw [if_pos hl2] at hA2
              have := (N.user _ (List.mem_of_getElem? hk2)).1
              simp only at this
              rw [← hA2, hA', name_user hk hm hy hl] at this
              cases this
            · rw [if_neg hl] at hA'
              rw [if_neg hl2] at hA2
              have e1 := name_user hk hm hy hl
              rw [← hA', hA2, name_user hk2 hm2 hy2 hl2] at e1
              simp only [Option.some.injEq, Prod.mk.injEq] at e1
              rw [if_neg hl, if_neg hl2] at heq
              exact ⟨e1.1.symm, by omega, heq⟩
        obtain ⟨rfl, rfl, rfl⟩ := same
        rw [hk] at hk2
        simp only [Option.some.injEq, Prod.mk.injEq] at hk2
        obtain ⟨rfl, rfl⟩ := hk2
        rw [hy] at hy2
        simp only [Option.some.injEq] at hy2
        subst hy2
        have hlt := getElem?_lt hy
        have iy := hb.inner_user (List.mem_of_getElem? hk) (List.mem_of_getElem? hy)
        have ip := hb.inner_pre hk hm hlt
        have py := (N.user _ (List.mem_of_getElem? hk)).2 y (List.mem_of_getElem? hy)
        -- facts about the left and the right part
        have left : ∀ {l : PTree} {i j : Nat}, TreeOf (rulesOf c) inp l (N.pre k rhs m) i j →
            (flat N info l).length = m ∧ flat N info l ≠ (rhs.take m).map .empty := by
          intro l i j hl
          obtain ⟨a1, a2⟩ := FlatOK.pre hk hm hlt (hb.flat_sound he hn hin l hl ip)
          refine ⟨by rw [a2.length, List.length_take]; omega, fun e => ?_⟩
          obtain ⟨t, h1, h2⟩ := a2.notEmpty a1
          rw [e] at h1
          obtain ⟨s, _, rfl⟩ := List.mem_map.1 h1
          cases h2
        have right : ∀ {r : PTree} {i j : Nat}, TreeOf (rulesOf c) inp r y i j → flat N info r ≠ [.empty y] := by
          intro r i j hr e
          obtain ⟨b1, u, b2, b3⟩ := FlatOK.user (hb.flat_sound he hn hin r hr iy) py
          rw [b2] at e
          simp only [List.cons.injEq, and_true] at e
          have := b3.notEmpty b1
          rw [e] at this
          cases this
        have len : ((rhs.take m).map UTree.empty).length = m := by rw [List.length_map, List.length_take]; omega
        clear heq hfl hfl2
        generalize hK : kids = kids2 at hst2
        cases hst with
        | @both d _ e _ l r q h1 h2 hl hr =>
          cases hst2 with
          | @both d2 _ e2 _ l2 r2 q2 h12 h22 hl2 hr2 =>
            obtain ⟨e1, e2⟩ := List.append_inj hK ((left hl).1.trans (left hl2).1.symm)
            rw [bare_index hb.nodup h1 h12 (h2.trans h22.symm), ih _ (by rw [← hs]; simp; omega) l rfl hl ip l2 hl2 e1,
              ih _ (by rw [← hs]; simp; omega) r rfl hr iy r2 hr2 e2]
          | dropRight h12 h22 hy2 hl2 => exact absurd (List.append_inj hK ((left hl).1.trans (left hl2).1.symm)).2 (right hr)
          | dropLeft h12 h22 hy2 hr2 => exact absurd (List.append_inj hK ((left hl).1.trans len.symm)).1 (left hl).2
        | @dropRight d _ _ l q h1 h2 h3 hl =>
          cases hst2 with
          | both h12 h22 hl2 hr2 => exact absurd (List.append_inj hK ((left hl).1.trans (left hl2).1.symm)).2.symm (right hr2)
          | @dropRight d2 _ _ l2 q2 h12 h22 h32 hl2 =>
            rw [bare_index hb.nodup h1 h12 (h2.trans h22.symm), ih _ (by rw [← hs]; simp; omega) l rfl hl ip l2 hl2
              (List.append_inj hK ((left hl).1.trans (left hl2).1.symm)).1]
          | dropLeft h12 h22 hy2 hr2 => exact absurd (List.append_inj hK ((left hl).1.trans len.symm)).1 (left hl).2
        | @dropLeft d _ _ r q h1 h2 h3 hr =>
          cases hst2 with
          | both h12 h22 hl2 hr2 => exact absurd (List.append_inj hK (len.trans (left hl2).1.symm)).1.symm (left hl2).2
          | dropRight h12 h22 hy2 hl2 => exact absurd (List.append_inj hK (len.trans (left hl2).1.symm)).1.symm (left hl2).2
          | @dropLeft d2 _ _ r2 q2 h12 h22 h32 hr2 =>
            rw [bare_index hb.nodup h1 h12 (h2.trans h22.symm), ih _ (by rw [← hs]; simp; omega) r rfl hr iy r2 hr2
              (List.append_inj hK rfl).2]

/-! ### Every user's tree has a binarized tree -/

theorem yieldsAll_nil {rhs : List Nat} (h : ∀ s ∈ rhs, Yields U s []) : YieldsAll U rhs [] := by
  induction rhs with
  | nil => exact .nil
  | cons s ss ih => exact YieldsAll.cons (u := []) (v := []) (h s (by simp)) (ih fun s' hs => h s' (by simp [hs]))

theorem UNullable.yields {s : Nat} (h : UNullable U s) : Yields U s [] := by
  induction h with
  | rule hk _ ih => exact .rule hk (yieldsAll_nil ih)

/-- The tokens read at positions are tokens of the user's grammar. -/
def InputOK (U : URules) (N : Names U) (inp : Input) : Prop := ∀ i, ∀ p ∈ inp i, UTerminal U p.1 ∧ N.parts p.1 = none

/-- The tokens `u` are read at the positions from `i` on. -/
inductive Reads (inp : Input) : Nat → Nat → List Nat → Prop
  | nil {i : Nat} : Reads inp i i []
  | cons {i j a v : Nat} {u : List Nat} : (a, v) ∈ inp i → Reads inp (i + 1) j u → Reads inp i j (a :: u)

theorem Reads.append {i k j : Nat} {u v : List Nat} (h : Reads inp i k u) (h' : Reads inp k j v) : Reads inp i j (u ++ v) := by
  induction h with
  | nil => exact h'
  | cons h1 _ ih => exact .cons h1 (ih h')

theorem Reads.length {i j : Nat} {u : List Nat} (h : Reads inp i j u) : i + u.length = j := by
  induction h with
  | nil => rfl
  | cons _ _ ih => simp only [List.length_cons]; omega

mutual
theorem UTreeOf.yields (hin : InputOK U N inp) {t : UTree} {A i j : Nat} (h : UTreeOf U inp t A i j) : ∃ u, Yields U A u ∧ Reads inp i j u :=
  match h with
  | .leaf h => ⟨_, .token (hin _ _ h).1, .cons h .nil⟩
  | .empty h => ⟨[], h.yields, .nil⟩
  | .node hk hkids _ => by
    obtain ⟨u, h1, h2⟩ := hkids.yields hin
    exact ⟨u, .rule hk h1, h2⟩
theorem UKids.yields (hin : InputOK U N inp) {ts : List UTree} {ss : List Nat} {i j : Nat} (h : UKids U inp ts ss i j) :
    ∃ u, YieldsAll U ss u ∧ Reads inp i j u :=
  match h with
  | .nil => ⟨[], .nil, .nil⟩
  | .cons h1 h2 => by
    obtain ⟨u, a1, a2⟩ := h1.yields hin
    obtain ⟨v, b1, b2⟩ := h2.yields hin
    exact ⟨u ++ v, .cons a1 b1, a2.append b2⟩
end

/-- The symbols read at positions derive strings that are not empty. -/
def LiveInput (U : URules) (inp : Input) : Prop := ∀ i, ∀ p ∈ inp i, Live U p.1

theorem InputOK.liveInput (h : InputOK U N inp) : LiveInput U inp := fun i p hp => ⟨p.1, [], .token (h i p hp).1⟩

mutual
theorem UTreeOf.yieldsLive (hin : LiveInput U inp) {t : UTree} {A i j : Nat} (h : UTreeOf U inp t A i j) : ∃ u, Yields U A u ∧ (i < j → u ≠ []) :=
  match h with
  | .leaf h => by
    obtain ⟨a, u, h1⟩ := hin _ _ h
    exact ⟨_, h1, fun _ => by simp⟩
  | .empty h => ⟨[], h.yields, fun h => absurd h (by omega)⟩
  | .node hk hkids _ => by
    obtain ⟨u, h1, h2⟩ := hkids.yieldsLive hin
    exact ⟨u, .rule hk h1, h2⟩
theorem UKids.yieldsLive (hin : LiveInput U inp) {ts : List UTree} {ss : List Nat} {i j : Nat} (h : UKids U inp ts ss i j) :
    ∃ u, YieldsAll U ss u ∧ (i < j → u ≠ []) :=
  match h with
  | .nil => ⟨[], .nil, fun h => absurd h (by omega)⟩
  | .cons (k := k) h1 h2 => by
    obtain ⟨u, a1, a2⟩ := h1.yieldsLive hin
    obtain ⟨v, b1, b2⟩ := h2.yieldsLive hin
    refine ⟨u ++ v, .cons a1 b1, fun hij e => ?_⟩
    obtain ⟨rfl, rfl⟩ := List.append_eq_nil_iff.1 e
    by_cases hk : i < k
    · exact a2 hk rfl
    · exact b2 (by omega) rfl
end

theorem UTreeOf.live (hin : LiveInput U inp) {t : UTree} {A i j : Nat} (h : UTreeOf U inp t A i j) (hij : i < j) : Live U A := by
  obtain ⟨u, h1, h2⟩ := h.yieldsLive hin
  cases u with
  | nil => exact absurd rfl (h2 hij)
  | cons a u => exact ⟨a, u, h1⟩

theorem UKids.live (hin : LiveInput U inp) {ts : List UTree} {ss : List Nat} {i j : Nat} (h : UKids U inp ts ss i j) (hij : i < j) :
    ∃ a u, YieldsAll U ss (a :: u) := by
  obtain ⟨u, h1, h2⟩ := h.yieldsLive hin
  cases u with
  | nil => exact absurd rfl (h2 hij)
  | cons a u => exact ⟨a, u, h1⟩

/-- Trees of several symbols that all have binarized trees. -/
inductive Done (U : URules) (N : Names U) (c : Cfg) (info : ForestInfo) (inp : Input) : List UTree → List Nat → Nat → Nat → Prop
  | nil {i : Nat} : Done U N c info inp [] [] i i
  | snoc {t : UTree} {s i k j : Nat} {ts : List UTree} {ss : List Nat} : Done U N c info inp ts ss i k → UTreeOf U inp t s k j →
      (k < j → ∃ p, TreeOf (rulesOf c) inp p s k j ∧ flat N info p = [t]) → Done U N c info inp (ts ++ [t]) (ss ++ [s]) i j

theorem Done.kids {ts : List UTree} {ss : List Nat} {i j : Nat} (h : Done U N c info inp ts ss i j) : UKids U inp ts ss i j := by
  induction h with
  | nil => exact .nil
  | snoc _ h1 _ ih => exact ih.append (.cons h1 .nil)

/-- A rule of the binarized grammar. -/
theorem Binarizes.has_rule (hb : Binarizes U N w g0 c) (he : info.eval = c.rules.map (·.origin))
    (hn : info.nullingEliminated = c.rules.map (·.nullable)) {r : CfgRule} (h : Expected U N r) (hl : LiveRule U N r) :
    ∃ d, (rulesOf c)[d]? = some (ruleOf r) ∧ info.origin d = r.origin ∧ info.removed d = r.nullable := by
  obtain ⟨q, hq, e⟩ := hb.complete r h hl
  obtain ⟨d, hd⟩ := List.getElem?_of_mem hq
  have h1 : (rulesOf c)[d]? = some (ruleOf q) := by
    unfold rulesOf
    rw [List.getElem?_map, hd]
    rfl
  have e1 : ruleOf q = ruleOf r := by
    show ruleOf (bare q) = ruleOf (bare r)
    rw [e]
  obtain ⟨q', a1, _, _, a2, a3⟩ := rule_at he hn h1
  rw [hd] at a1
  cases a1
  refine ⟨d, by rw [h1, e1], ?_, ?_⟩
  · rw [a2]
    show (bare q).origin = (bare r).origin
    rw [e]
  · rw [a3]
    show (bare q).nullable = (bare r).nullable
    rw [e]

theorem live_user {r : CfgRule} {s : Nat} (h : N.parts s = none) (hl : Live U s) :
    match N.parts s with
    | none => Live U s
    | some (k, j) => ∃ A rhs a u, U[k]? = some (A, rhs) ∧ YieldsAll U (rhs.take j) (a :: u) := by
  rw [h]
  exact hl

theorem live_pre {k A j : Nat} {rhs : List Nat} (hk : U[k]? = some (A, rhs)) (h1 : 1 ≤ j) (h2 : j < rhs.length) {a : Nat} {u : List Nat}
    (h : YieldsAll U (rhs.take j) (a :: u)) :
    match N.parts (N.pre k rhs j) with
    | none => Live U (N.pre k rhs j)
    | some (k, j) => ∃ A rhs a u, U[k]? = some (A, rhs) ∧ YieldsAll U (rhs.take j) (a :: u) := by
  by_cases hj : j = 1
  · subst hj
    cases rhs with
    | nil => simp at h2
    | cons s rhs =>
      rw [Names.pre_one, (N.user _ (List.mem_of_getElem? hk)).2 s (by simp)]
      simp only [List.take_succ_cons, List.take_zero] at h
      generalize hw : a :: u = x at h
      cases h with
      | cons h1 h2 =>
        cases h2
        rw [List.append_nil] at hw
        exact ⟨a, u, hw ▸ h1⟩
  · rw [N.pre_ge k rhs (by omega), N.parts_name k A rhs j hk (by omega) h2]
    exact ⟨A, rhs, a, u, hk, h⟩

theorem flat_binary {d : Nat} {l r : PTree} : flat N info (.node d (.pair l r)) = applyRule info treeEval d (flat N info l ++ flat N info r) := rfl

/-- The binarized tree of the first `m` subtrees of a rule. -/
theorem Binarizes.assemble (hb : Binarizes U N w g0 c) (he : info.eval = c.rules.map (·.origin))
    (hn : info.nullingEliminated = c.rules.map (·.nullable)) (hin : LiveInput U inp) {k A : Nat} {rhs : List Nat}
    (hk : U[k]? = some (A, rhs)) {ts : List UTree} {ss : List Nat} {i j : Nat} (h : Done U N c info inp ts ss i j) :
    ∀ m, ss = rhs.take m → ss.length = m → i < j →
      (1 ≤ m ∧ m < rhs.length → ∃ p, TreeOf (rulesOf c) inp p (N.pre k rhs m) i j ∧ flat N info p = ts) ∧
      (m = rhs.length → ∃ p, TreeOf (rulesOf c) inp p A i j ∧ flat N info p = [.node k ts]) := by
  have hmem := List.mem_of_getElem? hk
  induction h with
  | nil => intro m _ _ h; omega
  | @snoc t s i e j ts ss hd ht hp ih =>
    intro m hss hlen hij
    rw [List.length_append, List.length_singleton] at hlen
    subst hlen
    have hle : ss.length + 1 ≤ rhs.length := by
      have := congrArg List.length hss
      rw [List.length_append, List.length_singleton, List.length_take] at this
      omega
    have hy : rhs[ss.length]? = some s := by
      have := congrArg (fun l : List Nat => l[ss.length]?) hss
      simp only [List.getElem?_take] at this
      rw [if_pos (by omega)] at this
      rw [← this]
      simp
    have hpre : ss = rhs.take ss.length := by
      have := congrArg (fun l : List Nat => l.take ss.length) hss
      simp only [List.take_take, List.take_left'] at this
      rw [Nat.min_eq_left (by omega)] at this
      exact this
    have hps : N.parts s = none := (N.user _ hmem).2 s (List.mem_of_getElem? hy)
    by_cases hz : ss.length = 0
    · -- the first symbol of the rule
      have : ss = [] := List.length_eq_zero_iff.1 hz
      subst this
      have hd0 := hd.kids
      cases hd0 with
      | nil =>
        obtain ⟨p, p1, p2⟩ := hp hij
        have hhead : rhs.headD 0 = s := by
          cases rhs with
          | nil => simp at hle
          | cons x xs => simpa using hy
        refine ⟨fun _ => ⟨p, ?_, p2⟩, fun hl => ?_⟩
        · show TreeOf _ _ p (N.pre k rhs 1) _ _
          unfold Names.pre
          rw [if_pos rfl, hhead]
          exact p1
        · have hr : rhs = [s] := by
            match rhs, hl, hhead with
            | [x], _, h => simpa using h
          subst hr
          obtain ⟨d, d1, d2, d3⟩ := hb.has_rule he hn (Expected.single (dots := []) hk) (by
            intro x hx
            simp only [List.mem_singleton] at hx
            subst hx
            exact live_user (r := ⟨0, [], none, none, []⟩) hps (ht.live hin hij))
          refine ⟨.node d p, .unary d1 p1, ?_⟩
          rw [flat_node p1, d3]
          simp only [applyRule, d2, p2]
          rfl
    · -- a later symbol
      have h1 : 1 ≤ ss.length := by omega
      have finish : ∀ {p : PTree} {kids : List UTree}, TreeOf (rulesOf c) inp p (if ss.length + 1 = rhs.length then A else N.name k (ss.length + 1)) i j →
          flat N info p = wrapKids k rhs ss.length kids → kids = ts ++ [t] →
          (1 ≤ ss.length + 1 ∧ ss.length + 1 < rhs.length → ∃ p, TreeOf (rulesOf c) inp p (N.pre k rhs (ss.length + 1)) i j ∧ flat N info p = ts ++ [t]) ∧
          (ss.length + 1 = rhs.length → ∃ p, TreeOf (rulesOf c) inp p A i j ∧ flat N info p = [.node k (ts ++ [t])]) := by
        intro p kids hp hf hK
        subst hK
        constructor
        · intro hl
          refine ⟨p, ?_, ?_⟩
          · rw [if_neg (by omega)] at hp
            rw [N.pre_ge k rhs (by omega)]
            exact hp
          · rw [hf, wrapKids, if_neg (by omega)]
        · intro hl
          refine ⟨p, ?_, ?_⟩
          · rw [if_pos hl] at hp
            exact hp
          · rw [hf, wrapKids, if_pos hl]
      have hle1 := hd.kids.le
      have hle2 := ht.le
      by_cases hie : i < e
      · obtain ⟨l, l1, l2⟩ := (ih ss.length hpre rfl hie).1 ⟨h1, by omega⟩
        obtain ⟨a, u, hu⟩ := hd.kids.live hin hie
        rw [hpre] at hu
        have lp := live_pre (N := N) hk h1 (by omega) hu
        by_cases hej : e < j
        · obtain ⟨p, p1, p2⟩ := hp hej
          obtain ⟨d, d1, d2, d3⟩ := hb.has_rule he hn (Expected.both (dots := []) hk h1 hy) (by
            intro x hx
            simp only [List.mem_cons, List.not_mem_nil, or_false] at hx
            rcases hx with rfl | rfl
            · exact lp
            · exact live_user (r := ⟨0, [], none, none, []⟩) hps (ht.live hin hej))
          refine finish (p := .node d (.pair l p)) (.binary d1 l1 p1) ?_ rfl
          rw [flat_binary, applyRule_wrap d2, l2, p2]
        · have : e = j := by omega
          subst this
          obtain ⟨rfl, hnul⟩ := ht.eq_empty rfl
          obtain ⟨d, d1, d2, d3⟩ := hb.has_rule he hn (Expected.dropRight (dots := []) hk h1 hy hnul) (by
            intro x hx
            simp only [List.mem_singleton] at hx
            subst hx
            exact lp)
          refine finish (p := .node d l) (.unary d1 l1) ?_ rfl
          rw [flat_node l1, d3, applyRule_wrap d2, l2]
          simp only
          rw [emptyKids_user hps]
      · have : i = e := by omega
        subst this
        obtain ⟨p, p1, p2⟩ := hp hij
        obtain ⟨hts, hnul⟩ := hd.kids.eq_empties
        rw [hpre] at hnul hts
        obtain ⟨d, d1, d2, d3⟩ := hb.has_rule he hn (Expected.dropLeft (dots := []) hk h1 hy hnul) (by
          intro x hx
          simp only [List.mem_singleton] at hx
          subst hx
          exact live_user (r := ⟨0, [], none, none, []⟩) hps (ht.live hin hij))
        refine finish (p := .node d p) (.unary d1 p1) ?_ rfl
        rw [flat_node p1, d3, applyRule_wrap d2, p2]
        simp only
        rw [emptyKids_pre hk h1 (by omega), ← hts]

theorem Done.append {ts ts' : List UTree} {ss ss' : List Nat} {i k j : Nat} (h : Done U N c info inp ts ss i k)
    (h' : Done U N c info inp ts' ss' k j) : Done U N c info inp (ts ++ ts') (ss ++ ss') i j := by
  induction h' with
  | nil => simpa using h
  | snoc _ a b ih =>
    rw [← List.append_assoc, ← List.append_assoc]
    exact .snoc (ih h) a b

mutual
theorem Binarizes.complete_live (hb : Binarizes U N w g0 c) (he : info.eval = c.rules.map (·.origin))
    (hn : info.nullingEliminated = c.rules.map (·.nullable)) (hin : LiveInput U inp) {t : UTree} {A i j : Nat}
    (h : UTreeOf U inp t A i j) : i < j → ∃ p, TreeOf (rulesOf c) inp p A i j ∧ flat N info p = [t] :=
  match h with
  | .leaf h => fun _ => ⟨_, .leaf h, rfl⟩
  | .empty _ => fun h => absurd h (by omega)
  | .node hk hkids hij => fun _ =>
    ((hb.assemble he hn hin hk (hb.complete_kids he hn hin hkids) _ (by rw [List.take_length]) rfl hij).2 rfl)
theorem Binarizes.complete_kids (hb : Binarizes U N w g0 c) (he : info.eval = c.rules.map (·.origin))
    (hn : info.nullingEliminated = c.rules.map (·.nullable)) (hin : LiveInput U inp) {ts : List UTree} {ss : List Nat} {i j : Nat}
    (h : UKids U inp ts ss i j) : Done U N c info inp ts ss i j :=
  match h with
  | .nil => .nil
  | .cons h1 h2 => Done.append (.snoc .nil h1 (hb.complete_live he hn hin h1)) (hb.complete_kids he hn hin h2)
end

theorem Binarizes.complete_tree (hb : Binarizes U N w g0 c) (he : info.eval = c.rules.map (·.origin))
    (hn : info.nullingEliminated = c.rules.map (·.nullable)) (hin : InputOK U N inp) {t : UTree} {A i j : Nat}
    (h : UTreeOf U inp t A i j) (hij : i < j) : ∃ p, TreeOf (rulesOf c) inp p A i j ∧ flat N info p = [t] :=
  hb.complete_live he hn hin.liveInput h hij

end Gearley.Spec
