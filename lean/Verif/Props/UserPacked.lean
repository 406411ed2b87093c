import Verif.Proofs.UserPackedParse
import Verif.Props.User
import Verif.Proofs.CalculatorExists

/-!
# C58: values of ambiguous inputs, in terms of the user's grammar

C45 describes the values of an ambiguous parse by the binarized grammar. Here they are described by the user's grammar: for each
rule and each position where the last symbol of the rule may start there is one value. The rule is applied to *all* values of the
symbols before, one after the other, followed by all values of the last symbol. So the number of values is not the number of trees,
and a rule may be applied to more values than it has symbols.
-/

namespace Gearley.Props
open Gearley.Spec Build
variable {U : URules} {N : Names U} {w : WrappedRoot} {g0 : Nat} {c nulling : Cfg} {X : CfgCrate} {σ ν α : Type}

/-- C58, simple bocage. The values of any non-empty string of tokens in the language of the user's grammar. It is assumed that the
numbers of the parser go up in rules with one symbol (`UnaryDown`). Evaluating a second time returns the same values. -/
theorem C58_values_simple {E : Env Simple.Bocage Nat} {b : Simple.Bocage} (h : UserParser X U N w g0 c nulling E.g)
    (hk : EmptyKept U N c nulling E.g) (ho : UnaryDown c E.g) (hleo : E.leo = false) (hF : E.F = Simple.forest)
    (hb : Simple.Bocage.new E.g.forestInfo = pure b) (hr32 : c.rules.length < 2 ^ 32) (hs32 : c.numSyms ≤ 2 ^ 32) {toks : List Nat}
    (ht : Tokens U c toks) (hne : toks ≠ []) (hlen : toks.length + 1 < 2 ^ 64 - 1) (hy : Yields U w.innerRoot toks) :
    ∃ int s0 s x, (∀ a, Occurs c a → E.g.toInternal a = pure (some (int a))) ∧
      (∀ a y, a < c.numSyms → E.g.toInternal a = pure (some y) → int a = y) ∧
      Rec.new E b = pure s0 ∧ Rec.parse E s0 toks = pure (s, .ok true) ∧ Rec.finishedNode E s = pure (some x) ∧
      (s.forest.graph.length < 2 ^ 32 → ∀ (ev : Evaluator α) (nul : Nat → α), (∀ a rs, ev.nulling a rs = rs ++ [nul a]) →
        ∃ vs K, UVals U (userEval int ev) (fun a => nul (int a)) (tokInput toks) w.innerRoot 0 toks.length vs K ∧
          (s.forest.graph.length + 2 * K ≤ 2 ^ 32 → ∃ b', s.forest.evaluate ev x = pure (b', vs) ∧
            (s.forest.graph.length + 4 * K ≤ 2 ^ 32 → ∃ b'', b'.evaluate ev x = pure (b'', vs)))) := by
  obtain ⟨ext, c', n, hO⟩ := h.ours hk hleo hr32 hs32 ht hlen
  have hlen' : 1 < (parseSteps E.g.sofSym (toks.map (intNum ext))).length := by
    have := List.length_pos_iff.2 hne
    rw [parseSteps_length, List.length_map]
    omega
  have hne0 : ∀ r ∈ c.rules, r.rhs ≠ [] := by
    rintro r hr h'
    have := h.ok.len r hr
    simp [h'] at this
  obtain ⟨r, x, h1, h2, h3⟩ := C45_values_simple (α := α) hO.good (hO.unaryOrdered hne0 ho) hF hb hO.wrappedOnce (hO.accepts ht hne hy) hlen'
  obtain ⟨_, _, h1', h2', h4', _⟩ := finished_simple hO.good hF hb (hO.accepts ht hne hy)
  cases pure_inj_M (h1.symm.trans h1')
  cases pure_inj_M (h2.symm.trans h4')
  obtain ⟨s0, h5, h6⟩ := hO.parse h1 h2' h2
  refine ⟨intNum ext, s0, r.1, x, hO.known, hO.only, h5, h6, h2, fun hg ev nul hev => ?_⟩
  obtain ⟨nv, nc, hN, h0⟩ := hO.empties.nullEval hev
  obtain ⟨vs, k, h7, h8⟩ := h3 hg ev nv nc hN
  obtain ⟨K, hK, h9⟩ := hO.uvals ht h.inner.1 h.inner.2 (hO.bin.emptyVals hO.empties hN h0) h7
  refine ⟨vs, K, h9, fun hl => ?_⟩
  obtain ⟨b', e1, e2⟩ := h8 (by omega)
  exact ⟨b', e1, fun hl2 => e2 (by omega)⟩

/-- C58, compact bocage. -/
theorem C58_values_compact {E : Env Compact.Bocage Nat} {b : Compact.Bocage} (h : UserParser X U N w g0 c nulling E.g)
    (hk : EmptyKept U N c nulling E.g) (ho : UnaryDown c E.g) (hleo : E.leo = false) (hF : E.F = Compact.forest)
    (hb : Compact.Bocage.new E.g.forestInfo = pure b) (hr32 : c.rules.length < 2 ^ 32) (hs32 : c.numSyms ≤ 2 ^ 32) {toks : List Nat}
    (ht : Tokens U c toks) (hne : toks ≠ []) (hlen : toks.length + 1 < 2 ^ 64 - 1) (hy : Yields U w.innerRoot toks) :
    ∃ int s0 s x, (∀ a, Occurs c a → E.g.toInternal a = pure (some (int a))) ∧
      (∀ a y, a < c.numSyms → E.g.toInternal a = pure (some y) → int a = y) ∧
      Rec.new E b = pure s0 ∧ Rec.parse E s0 toks = pure (s, .ok true) ∧ Rec.finishedNode E s = pure (some x) ∧
      (s.forest.graph.length < 2 ^ 32 → ∀ (ev : Evaluator α) (nul : Nat → α), (∀ a rs, ev.nulling a rs = rs ++ [nul a]) →
        ∃ vs K, UVals U (userEval int ev) (fun a => nul (int a)) (tokInput toks) w.innerRoot 0 toks.length vs K ∧
          (s.forest.graph.length + 18 * K ≤ 2 ^ 32 → ∃ b', s.forest.evaluate ev x = pure (b', vs) ∧
            (s.forest.graph.length + 36 * K ≤ 2 ^ 32 → ∃ b'', b'.evaluate ev x = pure (b'', vs)))) := by
  obtain ⟨ext, c', n, hO⟩ := h.ours hk hleo hr32 hs32 ht hlen
  have hlen' : 1 < (parseSteps E.g.sofSym (toks.map (intNum ext))).length := by
    have := List.length_pos_iff.2 hne
    rw [parseSteps_length, List.length_map]
    omega
  have hne0 : ∀ r ∈ c.rules, r.rhs ≠ [] := by
    rintro r hr h'
    have := h.ok.len r hr
    simp [h'] at this
  obtain ⟨r, x, h1, h2, h3⟩ := C45_values_compact (α := α) hO.good (hO.unaryOrdered hne0 ho) hF hb hO.wrappedOnce (hO.accepts ht hne hy) hlen'
  obtain ⟨_, _, h1', h2', h4', _⟩ := finished_compact hO.good hF hb (hO.accepts ht hne hy)
  cases pure_inj_M (h1.symm.trans h1')
  cases pure_inj_M (h2.symm.trans h4')
  obtain ⟨s0, h5, h6⟩ := hO.parse h1 h2' h2
  refine ⟨intNum ext, s0, r.1, x, hO.known, hO.only, h5, h6, h2, fun hg ev nul hev => ?_⟩
  obtain ⟨nv, nc, hN, h0⟩ := hO.empties.nullEval hev
  obtain ⟨vs, k, h7, h8⟩ := h3 hg ev nv nc hN
  obtain ⟨K, hK, h9⟩ := hO.uvals ht h.inner.1 h.inner.2 (hO.bin.emptyVals hO.empties hN h0) h7
  refine ⟨vs, K, h9, fun hl => ?_⟩
  obtain ⟨b', e1, e2⟩ := h8 (by omega)
  exact ⟨b', e1, fun hl2 => e2 (by omega)⟩

variable {inp : Input} {ev : Evaluator α} {nul : Nat → α} {A i j k : Nat} {vs : List α}

/-- C58. There are as many values as pairs of a rule and a start of its last symbol, whatever the evaluator and however many
trees there are. -/
theorem C58_number (h : UVals U ev nul inp A i j vs k) (hij : i < j) (hA : ∀ v, (A, v) ∉ inp i) :
    ∃ l : List (Nat × Nat), l.Nodup ∧ l.length = vs.length ∧ ∀ k p, (k, p) ∈ l ↔
      ∃ ss y ts t, U[k]? = some (A, ss ++ [y]) ∧ UKids U inp ts ss i p ∧ UTreeOf U inp t y p j := by
  cases h with
  | leaf hm => exact absurd hm (hA _)
  | empty _ => omega
  | node as _ _ hnd hall _ _ => exact ⟨_, hnd, by simp, hall⟩

theorem UKids.of_nil {ts : List UTree} (h : UKids U inp ts [] i j) : j = i := by
  cases h
  rfl

theorem UPrefix.of_nil (h : UPrefix U ev nul inp [] i j vs k) : vs = [] := by
  generalize hs : [] = ss at h
  cases h with
  | nil => rfl
  | snoc => simp at hs

/-- The values of one symbol. -/
theorem UPrefix.one {y : Nat} (h : UPrefix U ev nul inp [y] i j vs k) : ∃ k, UVals U ev nul inp y i j vs k := by
  generalize hs : [y] = ss at h
  cases h with
  | nil => simp at hs
  | snoc as hne hnd hall hleft hright =>
    obtain ⟨rfl, rfl⟩ := List.append_singleton_inj (as := []) |>.1 hs
    match as, hne with
    | [a], _ =>
      obtain ⟨ts, t, h1, h2⟩ := (hall a.split).1 (by simp)
      have h3 := hleft a (by simp)
      have h4 := hright a (by simp)
      have e := UKids.of_nil h1
      have hl : a.left = [] := UPrefix.of_nil h3
      exact ⟨_, by simpa [hl, e] using h4⟩
    | a :: b :: as, _ =>
      exfalso
      obtain ⟨ts, t, h1, _⟩ := (hall a.split).1 (by simp)
      obtain ⟨ts', t', h1', _⟩ := (hall b.split).1 (by simp)
      simp [UKids.of_nil h1, UKids.of_nil h1'] at hnd

/-- C58. If a tree is determined by the rule at its root and the start of the last symbol of that rule, evaluation returns the
values of all derivation trees, each tree once. -/
theorem C58_trees (h : UVals U ev nul inp A i j vs k) (hij : i < j) (hA : ∀ v, (A, v) ∉ inp i)
    (hone : ∀ (k : Nat) ss y p ts ts' t t', U[k]? = some (A, ss ++ [y]) → UKids U inp ts ss i p → UKids U inp ts' ss i p →
      UTreeOf U inp t y p j → UTreeOf U inp t' y p j → ts = ts' ∧ t = t') :
    ∃ us : List UTree, us.Nodup ∧ (∀ u, u ∈ us ↔ UTreeOf U inp u A i j) ∧ vs = us.map (uval ev nul) := by
  cases h with
  | leaf hm => exact absurd hm (hA _)
  | empty _ => omega
  | node as _ hne hnd hall hleft hright =>
    have hex : ∀ a : UAlt α, ∃ u : UTree, a ∈ as → UTreeOf U inp u A i j ∧ uval ev nul u = ev.product a.rule (a.left ++ a.right) ∧
        ∃ ss y ts t, U[a.rule]? = some (A, ss ++ [y]) ∧ UKids U inp ts ss i a.split ∧ UTreeOf U inp t y a.split j ∧ u = .node a.rule (ts ++ [t]) := by
      intro a
      by_cases ha : a ∈ as
      · obtain ⟨ss, y, ts, t, h1, h2, h3⟩ := (hall a.rule a.split).1 (List.mem_map_of_mem (f := fun a : UAlt α => (a.rule, a.split)) ha)
        refine ⟨.node a.rule (ts ++ [t]), fun _ => ⟨.node h1 (h2.append (.cons h3 .nil)) hij, ?_, ss, y, ts, t, h1, h2, h3, rfl⟩⟩
        have e1 := UPrefix.unique (hleft a ha ss y h1) ts fun ts' => ⟨fun h => (hone _ _ _ _ _ _ _ _ h1 h h2 h3 h3).1, fun h => h ▸ h2⟩
        have e2 := UVals.unique (hright a ha ss y h1) t fun t' => ⟨fun h => (hone _ _ _ _ _ _ _ _ h1 h2 h2 h h3).2, fun h => h ▸ h3⟩
        rw [e1, e2]
        show ev.product a.rule (uvals ev nul (ts ++ [t])) = _
        rw [uvals_append]
        rfl
      · exact ⟨.empty 0, fun h => absurd h ha⟩
    obtain ⟨F, hF⟩ := Classical.axiomOfChoice hex
    refine ⟨as.map F, ?_, fun u => ?_, ?_⟩
    · rw [List.Nodup, List.pairwise_map] at hnd ⊢
      refine hnd.imp_of_mem fun {a b} ha hb hab e => hab ?_
      obtain ⟨_, _, ss, y, ts, t, h1, h2, h3, e1⟩ := hF a ha
      obtain ⟨_, _, ss', y', ts', t', h1', h2', h3', e1'⟩ := hF b hb
      rw [e1, e1'] at e
      simp only [UTree.node.injEq, List.append_singleton_inj] at e
      obtain ⟨e2, rfl, rfl⟩ := e
      rw [e2, UKids.span h2 h2']
    · rw [List.mem_map]
      constructor
      · rintro ⟨a, ha, rfl⟩
        exact (hF a ha).1
      · intro hu
        cases hu with
        | leaf hm => exact absurd hm (hA _)
        | empty _ => omega
        | @node k _ _ _ rhs ts hk hkids _ =>
          rcases List.eq_nil_or_concat rhs with rfl | ⟨ss, y, rfl⟩
          · cases hkids
            omega
          rw [List.concat_eq_append] at hk hkids
          obtain ⟨ts', t', p, rfl, h2, h3⟩ := UKids.unsnoc hkids
          obtain ⟨a, ha, e⟩ := List.mem_map.1 ((hall k p).2 ⟨ss, y, ts', t', hk, h2, h3⟩)
          simp only [Prod.mk.injEq] at e
          obtain ⟨rfl, rfl⟩ := e
          obtain ⟨_, _, ss', y', ts2, t2, h1', h2', h3', e1'⟩ := hF a ha
          rw [hk] at h1'
          simp only [Option.some.injEq, Prod.mk.injEq, List.append_singleton_inj, true_and] at h1'
          obtain ⟨rfl, rfl⟩ := h1'
          obtain ⟨e1, e2⟩ := hone _ _ _ _ _ _ _ _ hk h2 h2' h3 h3'
          exact ⟨a, ha, by rw [e1', e1, e2]⟩
    · rw [List.map_map]
      exact List.map_congr_left fun a ha => ((hF a ha).2.1).symm

/-- C58. In particular, if there is exactly one tree, its value is the only one (as in C55). -/
theorem C58_unique (h : UVals U ev nul inp A i j vs k) {t : UTree} (ht : ∀ t', UTreeOf U inp t' A i j ↔ t' = t) : vs = [uval ev nul t] :=
  UVals.unique h t ht

/-! ### An ambiguous grammar -/

namespace Pairs

/-- `E ::= E E | a`, where `E` is 0 and `a` is 1. A string of `n + 1` tokens has as many trees as there are binary trees with `n + 1`
leaves (the Catalan numbers). -/
def rules : URules := [(0, [0, 0]), (0, [1])]

theorem rules_cases {k A : Nat} {rhs : List Nat} (h : rules[k]? = some (A, rhs)) : (k = 0 ∧ A = 0 ∧ rhs = [0, 0]) ∨ (k = 1 ∧ A = 0 ∧ rhs = [1]) := by
  match k with
  | 0 | 1 =>
    cases h
    simp
  | k + 2 => simp [rules] at h

theorem input {n i a v : Nat} : (a, v) ∈ tokInput (List.replicate n 1) i ↔ i < n ∧ a = 1 ∧ v = i % 2 ^ 32 := by
  unfold tokInput
  by_cases hi : i < n
  · rw [List.getElem?_replicate_of_lt hi]
    simp [hi]
  · rw [List.getElem?_eq_none (by simp; omega)]
    simp [hi]

theorem not_nullable (s : Nat) : ¬ UNullable rules s := by
  intro h
  induction h with
  | rule hk _ ih =>
    rcases rules_cases hk with ⟨_, _, rfl⟩ | ⟨_, _, rfl⟩
    · exact ih 0 (by simp)
    · exact ih 1 (by simp)

theorem tree_some {n : Nat} : ∀ m i, i + m < n → ∃ t, UTreeOf rules (tokInput (List.replicate n 1)) t 0 i (i + m + 1) := by
  intro m
  induction m with
  | zero => exact fun i hi => ⟨_, .node (k := 1) (rhs := [1]) rfl (.cons (.leaf (input.2 ⟨by omega, rfl, rfl⟩)) .nil) (by omega)⟩
  | succ m ih =>
    intro i hi
    obtain ⟨t, ht⟩ := ih i (by omega)
    have ht' : UTreeOf rules (tokInput (List.replicate n 1)) _ 0 (i + m + 1) (i + m + 1 + 1) :=
      .node (k := 1) (rhs := [1]) rfl (.cons (.leaf (input.2 ⟨by omega, rfl, rfl⟩)) .nil) (by omega)
    exact ⟨_, .node (k := 0) (rhs := [0, 0]) rfl (.cons ht (.cons ht' .nil)) (by omega)⟩

theorem tree_span {n : Nat} : ∀ {t : UTree} {i j : Nat}, UTreeOf rules (tokInput (List.replicate n 1)) t 0 i j → i < j ∧ j ≤ n := by
  intro t
  induction hs : t.size using Nat.strong_induction_on generalizing t with
  | _ m ih =>
    intro i j h
    cases h with
    | leaf hm => simp [input] at hm
    | empty hn => exact absurd hn (not_nullable _)
    | node hk hkids hij =>
      rcases rules_cases hk with ⟨rfl, _, rfl⟩ | ⟨rfl, _, rfl⟩
      · cases hkids with
        | cons h1 h2 =>
          cases h2 with
          | cons h2 h3 =>
            cases h3
            refine ⟨hij, (ih _ ?_ rfl h2).2⟩
            simp only [← hs, UTree.size, UTree.sizes]
            omega
      · cases hkids with
        | cons h1 h2 =>
          cases h2
          cases h1 with
          | leaf hm =>
            have := input.1 hm
            omega
          | empty hn => exact absurd hn (not_nullable _)
          | node hk _ _ => rcases rules_cases hk with ⟨_, h, _⟩ | ⟨_, h, _⟩ <;> simp at h

/-- Over `m + 2` tokens there are the pairs of rule 0 and each position inside. -/
theorem alts {n m i : Nat} (hi : i + m + 2 ≤ n) (k p : Nat) :
    (∃ ss y ts t, rules[k]? = some (0, ss ++ [y]) ∧ UKids rules (tokInput (List.replicate n 1)) ts ss i p ∧
      UTreeOf rules (tokInput (List.replicate n 1)) t y p (i + m + 2)) ↔ k = 0 ∧ i < p ∧ p < i + m + 2 := by
  constructor
  · rintro ⟨ss, y, ts, t, h1, h2, h3⟩
    rcases rules_cases h1 with ⟨rfl, _, e⟩ | ⟨rfl, _, e⟩
    · obtain ⟨rfl, rfl⟩ := List.append_singleton_inj (bs := [0]) |>.1 e
      cases h2 with
      | cons h4 h5 =>
        cases h5
        exact ⟨rfl, (tree_span h4).1, (tree_span h3).1⟩
    · obtain ⟨rfl, rfl⟩ := List.append_singleton_inj (bs := []) |>.1 e
      cases h2
      cases h3 with
      | node hk _ _ => rcases rules_cases hk with ⟨_, h, _⟩ | ⟨_, h, _⟩ <;> simp at h
  · rintro ⟨rfl, h1, h2⟩
    obtain ⟨t, ht⟩ := tree_some (n := n) (p - i - 1) i (by omega)
    obtain ⟨t', ht'⟩ := tree_some (n := n) (i + m + 2 - p - 1) p (by omega)
    rw [show i + (p - i - 1) + 1 = p by omega] at ht
    rw [show p + (i + m + 2 - p - 1) + 1 = i + m + 2 by omega] at ht'
    exact ⟨[0], 0, [t], t', rfl, .cons ht .nil, ht'⟩

/-- C58. For `E ::= E E | a` and `m + 2` tokens there are `m + 1` values, though there are as many trees as the Catalan number of
`m + 1`. -/
theorem _root_.Gearley.Props.C58_fewer_values {n m i k : Nat} {ev : Evaluator α} {nul : Nat → α} {vs : List α} (hi : i + m + 2 ≤ n)
    (h : UVals rules ev nul (tokInput (List.replicate n 1)) 0 i (i + m + 2) vs k) : vs.length = m + 1 := by
  obtain ⟨l, h1, h2, h3⟩ := C58_number h (by omega) (by simp [input])
  rw [← h2]
  have : l.Perm ((List.range (m + 1)).map fun q => (0, i + 1 + q)) := by
    rw [List.perm_ext_iff_of_nodup h1 (List.nodup_range.map fun a b h => by simp at h; omega)]
    rintro ⟨k, p⟩
    rw [h3, alts hi, List.mem_map]
    constructor
    · rintro ⟨rfl, h4, h5⟩
      exact ⟨p - i - 1, List.mem_range.2 (by omega), by rw [show i + 1 + (p - i - 1) = p by omega]⟩
    · rintro ⟨q, hq, e⟩
      have := List.mem_range.1 hq
      cases e
      omega
  rw [this.length_eq]
  simp

theorem number {n q i k : Nat} {ev : Evaluator α} {nul : Nat → α} {vs : List α} (hi : i + q + 1 ≤ n)
    (h : UVals rules ev nul (tokInput (List.replicate n 1)) 0 i (i + q + 1) vs k) : vs.length = max 1 q := by
  match q with
  | m + 1 =>
    rw [C58_fewer_values (by omega) h]
    omega
  | 0 =>
    obtain ⟨l, h1, h2, h3⟩ := C58_number h (by omega) (by simp [input])
    have : l.Perm [(1, i)] := by
      rw [List.perm_ext_iff_of_nodup h1 (by simp)]
      rintro ⟨k, p⟩
      rw [h3, List.mem_singleton]
      constructor
      · rintro ⟨ss, y, ts, t, k1, k2, k3⟩
        rcases rules_cases k1 with ⟨rfl, _, e⟩ | ⟨rfl, _, e⟩
        · obtain ⟨rfl, rfl⟩ := List.append_singleton_inj (bs := [0]) |>.1 e
          cases k2 with
          | cons h4 h5 =>
            cases h5
            have := (tree_span h4).1
            have := (tree_span k3).1
            omega
        · obtain ⟨rfl, rfl⟩ := List.append_singleton_inj (bs := []) |>.1 e
          cases k2
          rfl
      · intro e
        cases e
        exact ⟨[], 1, [], _, rfl, .nil, .leaf (input.2 ⟨by omega, rfl, rfl⟩)⟩
    rw [← h2, this.length_eq]
    rfl

/-- The number of arguments a rule is applied to. -/
def arguments : Evaluator Nat where
  leaf _ _ := 0
  product _ vs := vs.length
  nulling _ rs := rs ++ [0]
  dflt := 0

/-- C58. For `E ::= E E | a` and `m + 2` tokens, the rule with two symbols is applied to `max 1 q + max 1 (m - q)` values at the
root, where `q + 1` is the number of tokens of the first symbol. With four tokens this is 3 for the first and the last of the three
applications. -/
theorem _root_.Gearley.Props.C58_arguments {n m i k : Nat} {nul : Nat → Nat} {vs : List Nat} (hi : i + m + 2 ≤ n)
    (h : UVals rules arguments nul (tokInput (List.replicate n 1)) 0 i (i + m + 2) vs k) :
    vs.Perm ((List.range (m + 1)).map fun q => max 1 q + max 1 (m - q)) := by
  cases h with
  | node as hij hne hnd hall hleft hright =>
    have hp : (as.map fun a => (a.rule, a.split)).Perm ((List.range (m + 1)).map fun q => (0, i + 1 + q)) := by
      rw [List.perm_ext_iff_of_nodup hnd (List.nodup_range.map fun a b h => by simp at h; omega)]
      rintro ⟨k, p⟩
      rw [hall, alts hi, List.mem_map]
      constructor
      · rintro ⟨rfl, h4, h5⟩
        exact ⟨p - i - 1, List.mem_range.2 (by omega), by rw [show i + 1 + (p - i - 1) = p by omega]⟩
      · rintro ⟨q, hq, e⟩
        have := List.mem_range.1 hq
        cases e
        omega
    have e : (as.map fun a => arguments.product a.rule (a.left ++ a.right)) =
        (as.map fun a => (a.rule, a.split)).map fun r => max 1 (r.2 - i - 1) + max 1 (m - (r.2 - i - 1)) := by
      rw [List.map_map]
      refine List.map_congr_left fun a ha => ?_
      obtain ⟨e1, h4, h5⟩ := (alts hi _ _).1 ((hall _ _).1 (List.mem_map_of_mem (f := fun a : UAlt Nat => (a.rule, a.split)) ha))
      have e0 : rules[a.rule]? = some (0, [0] ++ [0]) := by rw [e1]; rfl
      obtain ⟨_, h6⟩ := UPrefix.one (hleft a ha _ _ e0)
      have h7 := hright a ha _ _ e0
      rw [show a.split = i + (a.split - i - 1) + 1 by omega] at h6
      rw [show i + m + 2 = a.split + (m - (a.split - i - 1)) + 1 by omega] at h7
      show (a.left ++ a.right).length = _
      rw [List.length_append, number (by omega) h6, number (by omega) h7]
      rfl
    rw [e]
    refine (hp.map _).trans (List.Perm.of_eq ?_)
    rw [List.map_map]
    refine List.map_congr_left fun q hq => ?_
    show max 1 (i + 1 + q - i - 1) + max 1 (m - (i + 1 + q - i - 1)) = _
    rw [show i + 1 + q - i - 1 = q by omega]

example : (List.range 3).map (fun q => max 1 q + max 1 (2 - q)) = [3, 2, 3] := by decide

/-! A parser for this grammar satisfies all assumptions. -/

/-- No new symbols are needed. -/
def names : Names rules where
  name _ _ := 0
  parts _ := none
  parts_name k A rhs j hk h2 hj := by
    rcases rules_cases hk with ⟨_, _, rfl⟩ | ⟨_, _, rfl⟩ <;> simp at hj <;> omega
  user _ _ := ⟨rfl, fun _ _ => rfl⟩

/-- The wrapped grammar. -/
def cfg : Cfg where
  numSyms := 6
  rules := [wrapRoot 2, wrapBoth 2 0, { lhs := 0, rhs := [0, 0], origin := some 0, dots := Example.dots3 },
    { lhs := 0, rhs := [1], origin := some 1, dots := Example.dots3 }]
  wrappedRoots := [standardRoot 2 0]

theorem binarizes : Binarizes rules names (standardRoot 2 0) 5 cfg where
  sound r hr := by
    simp only [cfg, List.mem_cons, List.not_mem_nil, or_false] at hr
    rcases hr with rfl | rfl | rfl | rfl
    · exact .inl rfl
    · exact .inr (.inl rfl)
    · exact .inr (.inr (Expected.both (k := 0) (rhs := [0, 0]) (j := 1) rfl (by decide) rfl))
    · exact .inr (.inr (Expected.single (k := 1) rfl))
  complete r he _ := by
    cases he with
    | single hk =>
      rcases rules_cases hk with ⟨_, _, e⟩ | ⟨rfl, rfl, e⟩
      · simp at e
      · cases e
        exact ⟨_, List.mem_of_getElem? (i := 3) rfl, rfl⟩
    | @both k A j y rhs dots hk hj hy =>
      rcases rules_cases hk with ⟨rfl, rfl, rfl⟩ | ⟨rfl, rfl, rfl⟩
      · match j, hj with
        | 1, _ =>
          cases hy
          exact ⟨_, List.mem_of_getElem? (i := 2) rfl, rfl⟩
        | j + 2, _ => simp at hy
      · match j, hj with
        | j + 1, _ => simp at hy
    | dropRight _ _ _ hn => exact absurd hn (not_nullable _)
    | @dropLeft k A j y rhs dots hk hj hy hn =>
      exfalso
      match rhs, j, hj with
      | [], _, _ => simp at hy
      | s :: rhs, j + 1, _ => exact not_nullable s (hn s (by simp))
  nodup := by decide +kernel
  once := by decide +kernel
  fresh s hs := by
    rcases hs with rfl | rfl | rfl | rfl <;> decide +kernel

theorem ok : BinarizedOK cfg (standardRoot 2 0) where
  len := by decide +kernel
  lhs_lt := by decide +kernel
  rhs_lt := by decide +kernel
  fresh := by
    have : ∀ r ∈ cfg.rules, r.rhs.length = 1 → ¬ Generated cfg r.lhs ∧ ∀ s ∈ r.rhs, ¬ Generated cfg s := by decide +kernel
    intro r hr s h
    obtain ⟨h1, h2⟩ := this r hr (by rw [h]; rfl)
    exact ⟨fun h' => absurd h' h1, fun _ h' => absurd h' (h2 s (by rw [h]; simp))⟩
  genLhs := by
    have : ∀ r₁ ∈ cfg.rules, ∀ r₂ ∈ cfg.rules, ∀ A ∈ r₁.rhs[0]?, r₂.rhs[0]? = some A → Generated cfg A →
      r₁.lhs = r₂.lhs := by decide +kernel
    exact fun r₁ h₁ r₂ h₂ A hA => this r₁ h₁ r₂ h₂ A hA
  genUnary := by
    intro A hA
    have : ∀ A < 6, Generated cfg A → (cfg.rules.countP fun r => r.rhs = [A]) ≤ 1 := by decide +kernel
    refine this A ?_ hA
    obtain ⟨_, _, _, r, hr, rfl, _⟩ := hA
    have : ∀ r ∈ cfg.rules, r.lhs < 6 := by decide +kernel
    exact this r hr
  nested := ⟨fun s => s, by
    have : ∀ r ∈ cfg.rules, ∀ A ∈ r.rhs[0]?, Generated cfg A → r.lhs < A := by decide +kernel
    exact fun r hr A hA => this r hr A hA⟩
  dots := by decide +kernel
  numRoots := rfl
  root := rfl
  startRule := by decide +kernel
  eofOnce := by decide +kernel
  eofNot0 := by decide +kernel
  eofTerm := by decide +kernel
  startNot := by decide +kernel
  sofUsed := by decide +kernel
  sofTerm := by decide +kernel

theorem acyclic : UnaryAcyclic (rulesOf cfg) := ⟨fun s => s, by decide +kernel⟩

theorem wrapping : Wrapping (rulesOf cfg) (standardRoot 2 0) (UNullable rules 0) := by
  refine ⟨⟨5, by decide +kernel, by decide +kernel, ⟨fun h => absurd h (by decide +kernel), fun h => absurd h (not_nullable 0)⟩, by decide +kernel⟩, ?_,
    by unfold Terminal; decide +kernel, by unfold Terminal; decide +kernel⟩
  rintro g0 h rfl
  revert h
  decide +kernel

theorem parser : ∃ g, UserParser plainCrate rules names (standardRoot 2 0) 5 cfg Example.noRules g ∧
    EmptyKept rules names cfg Example.noRules g ∧ UnaryDown cfg g := by
  obtain ⟨c', n, ext, _, _, hocc, hb, hg⟩ := C46_built (nulling := Example.noRules) plainCrate_ok ok acyclic
  obtain ⟨g, hg⟩ := hg fun r hr => by cases hr
  refine ⟨g, ⟨⟨plainCrate_ok, ok, hg, binarizes, wrapping, by decide +kernel, by decide +kernel⟩, acyclic⟩, ⟨⟨?_, ?_⟩, ?_, ?_⟩, ?_⟩
  · intro r hr
    cases hr
  · intro k A rhs j y hk hj hlt hy h
    exfalso
    match rhs, hlt with
    | s :: rhs, _ => exact not_nullable s (h s (by simp))
  · intro r hr
    cases hr
  · have : ∀ r ∈ cfg.rules, r.nullable = none := by decide +kernel
    intro r hr p hp
    rw [this r hr] at hp
    cases hp
  · have hl : (do let p ← remapSymbols plainCrate cfg; pure p.2.toInternal : M _) =
      pure [some 1, some 2, some 3, some 4, some 0, some 5] := by decide +kernel
    intro r hr B hB x y hx hy
    simp only [cfg, List.mem_cons, List.not_mem_nil, or_false] at hr
    rcases hr with rfl | rfl | rfl | rfl
    · cases hB
    · cases hB
    · cases hB
    · cases hB
      cases pure_inj_M ((Calculator.Precedenced.toInternal_of hg hl (by simp) (t := 0) rfl).symm.trans hx)
      cases pure_inj_M ((Calculator.Precedenced.toInternal_of hg hl (by simp) (t := 1) rfl).symm.trans hy)
      decide

theorem tokens (n : Nat) : Tokens rules cfg (List.replicate n 1) := by
  intro t ht
  rw [(List.mem_replicate.1 ht).2]
  exact ⟨by unfold UTerminal; decide, ⟨_, List.mem_of_getElem? (i := 1) rfl, by decide⟩, ⟨_, List.mem_of_getElem? (i := 3) rfl, .inr (by decide)⟩⟩

theorem yields (n : Nat) : Yields rules 0 (List.replicate (n + 1) 1) := by
  induction n with
  | zero => exact .rule (k := 1) rfl (.cons (v := []) (.token (by unfold UTerminal; decide)) .nil)
  | succ n ih =>
    have h : Yields rules 0 [1] := .rule (k := 1) rfl (.cons (v := []) (.token (by unfold UTerminal; decide)) .nil)
    have := Yields.rule (U := rules) (k := 0) (A := 0) rfl (.cons ih (.cons h .nil))
    rwa [List.append_nil, show [1] = List.replicate 1 1 from rfl, List.replicate_append_replicate] at this

/-- C58. With four tokens the parser for `E ::= E E | a` applies the rule of two symbols to three values, twice. -/
theorem _root_.Gearley.Props.C58_too_many_arguments : ∃ g, UserParser plainCrate rules names (standardRoot 2 0) 5 cfg Example.noRules g ∧
    ∀ (E : Env Simple.Bocage Nat) (b : Simple.Bocage), E.g = g → E.leo = false → E.F = Simple.forest → Simple.Bocage.new g.forestInfo = pure b →
      ∃ s0 s x, Rec.new E b = pure s0 ∧ Rec.parse E s0 [1, 1, 1, 1] = pure (s, .ok true) ∧ Rec.finishedNode E s = pure (some x) ∧
        (s.forest.graph.length < 2 ^ 32 → ∃ int vs K, UVals rules (userEval int arguments) (fun _ => 0) (tokInput [1, 1, 1, 1]) 0 0 4 vs K ∧
          vs.Perm [3, 2, 3] ∧ (s.forest.graph.length + 2 * K ≤ 2 ^ 32 → ∃ b', s.forest.evaluate arguments x = pure (b', vs))) := by
  obtain ⟨g, h1, h2, h3⟩ := parser
  refine ⟨g, h1, ?_⟩
  rintro E b rfl hleo hF hb
  obtain ⟨int, s0, s, x, _, _, h4, h5, h6, h7⟩ := C58_values_simple (α := Nat) h1 h2 h3 hleo hF hb (by decide) (by decide) (tokens 4)
    (by decide) (by decide) (yields 3)
  refine ⟨s0, s, x, h4, h5, h6, fun hl => ?_⟩
  obtain ⟨vs, K, h8, h9⟩ := h7 hl arguments (fun _ => 0) fun _ _ => rfl
  refine ⟨int, vs, K, h8, C58_arguments (n := 4) (m := 2) (i := 0) (by decide) h8, fun hl' => ?_⟩
  obtain ⟨b', e, _⟩ := h9 hl'
  exact ⟨b', e⟩

example (E : Env Compact.Bocage Nat) (b : Compact.Bocage) (n : Nat) (hn : n + 2 < 2 ^ 64 - 1) (h : UserParser plainCrate rules names (standardRoot 2 0) 5 cfg Example.noRules E.g)
    (h1 : EmptyKept rules names cfg Example.noRules E.g) (h2 : UnaryDown cfg E.g) (hleo : E.leo = false) (hF : E.F = Compact.forest)
    (hb : Compact.Bocage.new E.g.forestInfo = pure b) :=
  C58_values_compact (α := Nat) h h1 h2 hleo hF hb (by decide) (by decide) (tokens (n + 1)) (by simp) (by simpa using hn) (yields n)

-- three tokens: each of the two trees is determined by the start of the last symbol, and both values are returned
example {k : Nat} {vs : List α} {ev : Evaluator α} {nul : Nat → α} (h : UVals rules ev nul (tokInput (List.replicate 3 1)) 0 0 3 vs k) :
    ∃ us : List UTree, us.Nodup ∧ (∀ u, u ∈ us ↔ UTreeOf rules (tokInput (List.replicate 3 1)) u 0 0 3) ∧ vs = us.map (uval ev nul) := by
  have one : ∀ {i} {t t' : UTree}, UTreeOf rules (tokInput (List.replicate 3 1)) t 0 i (i + 1) →
      UTreeOf rules (tokInput (List.replicate 3 1)) t' 0 i (i + 1) → t = t' := by
    have single : ∀ {i} {t : UTree}, UTreeOf rules (tokInput (List.replicate 3 1)) t 0 i (i + 1) → t = .node 1 [.leaf 1 (i % 2 ^ 32)] := by
      intro i t h
      cases h with
      | leaf hm => exact absurd (input.1 hm).2.1 (by decide)
      | node hk hkids _ =>
        rcases rules_cases hk with ⟨rfl, _, rfl⟩ | ⟨rfl, _, rfl⟩
        · cases hkids with
          | cons h1 h2 =>
            cases h2 with
            | cons h2 h3 =>
              cases h3
              have := (tree_span h1).1
              have := (tree_span h2).1
              omega
        · cases hkids with
          | cons h1 h2 =>
            cases h2
            cases h1 with
            | leaf hm => rw [(input.1 hm).2.2]
            | node hk _ _ => rcases rules_cases hk with ⟨_, h, _⟩ | ⟨_, h, _⟩ <;> simp at h
    intro i t t' h h'
    rw [single h, single h']
  have two : ∀ {i} {t t' : UTree}, UTreeOf rules (tokInput (List.replicate 3 1)) t 0 i (i + 2) →
      UTreeOf rules (tokInput (List.replicate 3 1)) t' 0 i (i + 2) → t = t' := by
    have pair : ∀ {i} {t : UTree}, UTreeOf rules (tokInput (List.replicate 3 1)) t 0 i (i + 2) → ∃ a b, t = .node 0 [a, b] ∧
        UTreeOf rules (tokInput (List.replicate 3 1)) a 0 i (i + 1) ∧ UTreeOf rules (tokInput (List.replicate 3 1)) b 0 (i + 1) (i + 1 + 1) := by
      intro i t h
      cases h with
      | node hk hkids _ =>
        rcases rules_cases hk with ⟨rfl, _, rfl⟩ | ⟨rfl, _, rfl⟩
        · cases hkids with
          | cons h1 h2 =>
            cases h2 with
            | cons h2 h3 =>
              cases h3
              rename_i a p b
              have := (tree_span h1).1
              have := (tree_span h2).1
              have : p = i + 1 := by omega
              subst this
              exact ⟨_, _, rfl, h1, h2⟩
        · cases hkids with
          | cons h1 h2 =>
            cases h2
            cases h1 with
            | node hk _ _ => rcases rules_cases hk with ⟨_, h, _⟩ | ⟨_, h, _⟩ <;> simp at h
    intro i t t' h h'
    obtain ⟨a, b, rfl, h1, h2⟩ := pair h
    obtain ⟨a', b', rfl, h1', h2'⟩ := pair h'
    rw [one h1 h1', one h2 h2']
  refine C58_trees h (by decide) (fun v hm => absurd (input.1 hm).2.1 (by decide)) fun k ss y p ts ts' t t' hk h1 h2 h3 h4 => ?_
  obtain ⟨rfl, h5, h6⟩ := (alts (n := 3) (m := 1) (i := 0) (by decide) k p).1 ⟨ss, y, ts, t, hk, h1, h3⟩
  rcases rules_cases hk with ⟨_, _, e⟩ | ⟨h, _⟩
  · obtain ⟨rfl, rfl⟩ := List.append_singleton_inj (bs := [0]) |>.1 e
    cases h1 with
    | cons h1 h1' =>
      cases h1'
      cases h2 with
      | cons h2 h2' =>
        cases h2'
        match p, h5, h6 with
        | 1, _, _ => exact ⟨by rw [one h1 h2], two h3 h4⟩
        | 2, _, _ => exact ⟨by rw [two h1 h2], one h3 h4⟩
  · simp at h

end Pairs

end Gearley.Props
