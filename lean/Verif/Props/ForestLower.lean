import Verif.Proofs.ForestLower
import Verif.Props.EvalCost
import Mathlib.Algebra.BigOperators.Intervals

/-!
# C67: lower bounds for the size of the forest and the work of the recognizer

The cubic bounds of C43 and C54 are attained. `UsefulAlternative` and `TokensDiffer` are defined in Proofs/ForestLower.lean.
-/

namespace Gearley.Props
open Gearley.Spec
variable {c : Cfg} {n : Nat} {w : WrappedRoot} {nullable : Prop} {steps : List Step} {g0 : Nat}

/-- C67, simple bocage. The graph has an entry for each rule, range and split that are part of a parse tree of the input,
unless handles overflow. -/
theorem C67_size_simple {E : Env Simple.Bocage Nat} {b : Simple.Bocage} (h : GoodParse E c n w nullable steps g0)
    (ho : UnaryOrdered (rulesOf c)) (hF : E.F = Simple.forest) (hb : Simple.Bocage.new E.g.forestInfo = pure b)
    (hacc : Accepts (rulesOf c) g0 steps) (hd : TokensDiffer (inputOf steps)) {K : Finset (Nat × Nat × Nat × Nat)}
    (hK : ∀ a ∈ K, UsefulAlternative (rulesOf c) g0 (inputOf steps) steps.length a.1 a.2.1 a.2.2.1 a.2.2.2) :
    ∃ r, (Rec.new E b >>= Rec.session E steps) = pure r ∧ min K.card (2 ^ 32) ≤ r.1.forest.graph.length := by
  obtain ⟨r, x, h1, -, -, h4⟩ := packed_simple h ho hF hb hacc
  refine ⟨r, h1, ?_⟩
  by_cases hl : r.1.forest.graph.length < 2 ^ 32
  · refine Nat.le_trans (Nat.min_le_left _ _) ?_
    exact alternatives_le (V := Simple.HasView r.1.forest.graph) (P := fun p d f => r.1.forest.graph[p]? = some (Simple.Node.product d f))
      (fun _ _ _ => Simple.HasView.det) hd (fun _ _ hv => Simple.alts_at hv)
      (fun p d f d' f' e e' => by rw [e] at e'; cases e'; exact ⟨rfl, rfl⟩)
      (fun p d f e => (List.getElem?_eq_some_iff.1 e).1) (h4 hl) (fun i => (h.plain i).2) hK
  · omega

/-- C67, compact bocage: bytes of the graph. -/
theorem C67_size_compact {E : Env Compact.Bocage Nat} {b : Compact.Bocage} (h : GoodParse E c n w nullable steps g0)
    (ho : UnaryOrdered (rulesOf c)) (hF : E.F = Compact.forest) (hb : Compact.Bocage.new E.g.forestInfo = pure b)
    (hacc : Accepts (rulesOf c) g0 steps) (hd : TokensDiffer (inputOf steps)) {K : Finset (Nat × Nat × Nat × Nat)}
    (hK : ∀ a ∈ K, UsefulAlternative (rulesOf c) g0 (inputOf steps) steps.length a.1 a.2.1 a.2.2.1 a.2.2.2) :
    ∃ r, (Rec.new E b >>= Rec.session E steps) = pure r ∧ min K.card (2 ^ 32) ≤ r.1.forest.graph.length := by
  obtain ⟨r, x, h1, -, -, h4⟩ := packed_compact h ho hF hb hacc
  refine ⟨r, h1, ?_⟩
  by_cases hl : r.1.forest.graph.length < 2 ^ 32
  · refine Nat.le_trans (Nat.min_le_left _ _) ?_
    exact alternatives_le (V := Compact.HasView r.1.forest.graph) (P := fun p d f => Compact.get r.1.forest.graph p = pure (.summand d f))
      (fun _ _ _ => Compact.HasView.det) hd (fun _ _ hv => Compact.alts_at hv)
      (fun p d f d' f' e e' => by rw [e] at e'; cases pure_inj_M e'; exact ⟨rfl, rfl⟩)
      (fun p d f e => Compact.get_lt e) (h4 hl) (fun i => (h.plain i).2) hK
  · omega

/-- C67. The work: the number of operations on the forest. -/
theorem C67_work_simple {E : Env Simple.Bocage Nat} {b : Simple.Bocage} (h : GoodParse E c n w nullable steps g0)
    (ho : UnaryOrdered (rulesOf c)) (hF : E.F = Simple.forest) (hb : Simple.Bocage.new E.g.forestInfo = pure b)
    (hacc : Accepts (rulesOf c) g0 steps) (hd : TokensDiffer (inputOf steps)) {K : Finset (Nat × Nat × Nat × Nat)}
    (hK : ∀ a ∈ K, UsefulAlternative (rulesOf c) g0 (inputOf steps) steps.length a.1 a.2.1 a.2.2.1 a.2.2.2) :
    ∃ r, (Rec.new E.counting (b, 0) >>= Rec.session E.counting steps) = pure r ∧
      min K.card (2 ^ 32) ≤ b.graph.length + r.1.forest.2 := by
  obtain ⟨r, h1, h2⟩ := C67_size_simple h ho hF hb hacc hd hK
  have hG : Grows E.F (fun b => b.graph.length) 1 := hF ▸ C54_forests.1
  obtain ⟨r', h3, -, h5⟩ := C54_size hG h1
  exact ⟨r', h3, by omega⟩

/-! ### The cubic bound is attained: `a plus a … plus a` with `E ::= E plus E | a` -/

section
open Gearley.Example

/-- The input `sof a plus a … plus a` with `k` operators. The value of a token is its position. -/
def sumSteps (k : Nat) : List Step :=
  (List.range (2 * k + 2)).map fun i => (.keep, [(if i = 0 then 1 else if i % 2 = 1 then 5 else 2, i)])

theorem sumSteps_length (k : Nat) : (sumSteps k).length = 2 * k + 2 := by simp [sumSteps]

theorem sum_input {k i : Nat} (hi : i < 2 * k + 2) :
    inputOf (sumSteps k) i = [(if i = 0 then 1 else if i % 2 = 1 then 5 else 2, i)] := by
  simp [inputOf, sumSteps, List.getElem?_map, List.getElem?_range hi]

theorem sum_input_none {k i : Nat} (hi : 2 * k + 2 ≤ i) : inputOf (sumSteps k) i = [] := by
  simp [inputOf, sumSteps, hi]

theorem sum_mem {k : Nat} {st : Step} (h : st ∈ sumSteps k) :
    ∃ a i, (a = 1 ∨ a = 5 ∨ a = 2) ∧ i < 2 * k + 2 ∧ st = (.keep, [(a, i)]) := by
  obtain ⟨i, hi, rfl⟩ := List.mem_map.1 h
  refine ⟨_, i, ?_, List.mem_range.1 hi, rfl⟩
  split
  · simp
  · split <;> simp

theorem sum_differ (k : Nat) : TokensDiffer (inputOf (sumSteps k)) := by
  intro i j p hi hj
  rcases Nat.lt_or_ge i (2 * k + 2) with h | h
  · rcases Nat.lt_or_ge j (2 * k + 2) with h' | h'
    · rw [sum_input h, List.mem_singleton] at hi
      rw [sum_input h', List.mem_singleton] at hj
      exact (congrArg Prod.snd hi).symm.trans (congrArg Prod.snd hj)
    · rw [sum_input_none h'] at hj; cases hj
  · rw [sum_input_none h] at hi; cases hi

theorem sum_terms (k : Nat) : ∀ st ∈ sumSteps k, (st.2.map (·.1)).Nodup ∧ Terminals cfg 6 (st.2.map (·.1)) := by
  intro st hst
  obtain ⟨a, i, ha, _, rfl⟩ := sum_mem hst
  rcases ha with rfl | rfl | rfl <;> exact ⟨by simp, by unfold Terminals Terminal; simp only [List.map_cons, List.map_nil]; decide⟩

theorem sum_good {σ : Type} {E : Env σ Nat} (hg : E.g = grammar) (hleo : E.leo = false) {k : Nat} (hk : 2 * k + 2 ≤ 2 ^ 32) :
    GoodParse E cfg 6 wrap False (sumSteps k) 6 :=
  PlainParse.good (h := {
    prepared := hg ▸ built.toPrepared
    leo := hleo
    rules32 := by decide
    syms32 := by decide
    wrapping := (amb_plain hg hleo).wrapping
    tokens := by
      intro st hst p hp
      obtain ⟨a, i, ha, hi, rfl⟩ := sum_mem hst
      cases List.mem_singleton.1 hp
      exact ⟨by rcases ha with rfl | rfl | rfl <;> (simp only; decide), by simp only; omega⟩
    hints := by
      intro st hst x hx
      obtain ⟨a, i, ha, _, rfl⟩ := sum_mem hst
      cases hx
    ne := by
      intro h
      have := congrArg List.length h
      rw [sumSteps_length] at this
      simp at this
    len := by rw [sumSteps_length]; omega
    honest := fun _ => by
      intro i st x hst hx
      obtain ⟨a, i, ha, _, rfl⟩ := sum_mem (List.mem_of_getElem? hst)
      cases hx
    plain := plain_of_terms (sum_terms k)
    rule := by decide }) built.acyclic

theorem sum_leaf {k i : Nat} (h1 : i % 2 = 1) (h2 : i + 1 < 2 * k + 2) :
    TreeOf (rulesOf cfg) (inputOf (sumSteps k)) (.leaf 2 (i + 1)) 2 (i + 1) (i + 1 + 1) := .leaf (by
  rw [sum_input (by omega), if_neg (by omega), if_neg (by omega)]; simp)

theorem sum_tree {k : Nat} : ∀ (p i : Nat), i % 2 = 1 → i + 2 * p + 1 ≤ 2 * k + 2 →
    ∃ t, TreeOf (rulesOf cfg) (inputOf (sumSteps k)) t 4 i (i + 2 * p + 1)
  | 0, i, h1, h2 => ⟨_, .unary (d := 2) (B := 5) rfl (.leaf (v := i) (by
      rw [sum_input (by omega), if_neg (by omega), if_pos h1]; simp))⟩
  | p + 1, i, h1, h2 => by
    obtain ⟨t, ht⟩ := sum_tree (k := k) 0 i h1 (by omega)
    obtain ⟨u, hu⟩ := sum_tree (k := k) p (i + 2) (by omega) (by omega)
    refine ⟨.node 1 (.pair (.node 4 (.pair t (.leaf 2 (i + 1)))) u), ?_⟩
    rw [show i + 2 * (p + 1) + 1 = i + 2 + 2 * p + 1 by omega]
    exact .binary (d := 1) (B := 7) (C := 4) rfl (.binary (d := 4) (B := 4) (C := 2) (k := i + 1) rfl ht
      (sum_leaf h1 (by omega))) hu

/-- `E` over the operands `a .. b`. -/
theorem sum_e {k a b : Nat} (hab : a ≤ b) (hb : b ≤ k) :
    ∃ t, TreeOf (rulesOf cfg) (inputOf (sumSteps k)) t 4 (2 * a + 1) (2 * b + 2) := by
  obtain ⟨t, ht⟩ := sum_tree (k := k) (b - a) (2 * a + 1) (by omega) (by omega)
  rw [show 2 * a + 1 + 2 * (b - a) + 1 = 2 * b + 2 by omega] at ht
  exact ⟨t, ht⟩

/-- `E plus` over the operands `a .. b`. -/
theorem sum_plus {k a b : Nat} (hab : a ≤ b) (hb : b < k) :
    ∃ t, TreeOf (rulesOf cfg) (inputOf (sumSteps k)) t 7 (2 * a + 1) (2 * (b + 1) + 1) := by
  obtain ⟨t, ht⟩ := sum_e (k := k) hab (by omega)
  exact ⟨_, .binary (d := 4) (B := 4) (C := 2) (k := 2 * b + 2) rfl ht (sum_leaf (i := 2 * b + 1) (by omega) (by omega))⟩

theorem sum_sof {k : Nat} : TreeOf (rulesOf cfg) (inputOf (sumSteps k)) (.leaf 1 0) 1 0 1 :=
  .leaf (by rw [sum_input (by omega)]; simp)

theorem sum_accepts {k : Nat} : Accepts (rulesOf cfg) 6 (sumSteps k) := by
  obtain ⟨t, ht⟩ := sum_e (k := k) (Nat.zero_le k) (Nat.le_refl k)
  obtain ⟨u, h1, h2, h3⟩ := (TreeOf.binary (d := 3) (A := 6) (B := 1) (C := 4) rfl sum_sof ht).derives
  exact ⟨u, by rw [sumSteps_length]; omega, h2, h1⟩

theorem sum_ctx {k a b : Nat} (hab : a ≤ b) (hb : b ≤ k) :
    Ctx (rulesOf cfg) 6 (inputOf (sumSteps k)) (2 * k + 2) 4 (2 * a + 1) (2 * b + 2) := by
  have h0 : Ctx (rulesOf cfg) 6 (inputOf (sumSteps k)) (2 * k + 2) 4 (2 * 0 + 1) (2 * k + 2) :=
    .right (d := 3) (B := 1) rfl .root sum_sof
  have h1 : ∀ {b}, b ≤ k → Ctx (rulesOf cfg) 6 (inputOf (sumSteps k)) (2 * k + 2) 4 (2 * 0 + 1) (2 * b + 2) := by
    intro b hb
    rcases Nat.eq_or_lt_of_le hb with rfl | hb
    · exact h0
    · obtain ⟨t, ht⟩ := sum_e (k := k) (a := b + 1) (b := k) (by omega) (Nat.le_refl _)
      exact .left (d := 4) (C := 2) rfl (.left (d := 1) (C := 4) rfl h0 ht) (sum_leaf (i := 2 * b + 1) (by omega) (by omega))
  rcases Nat.eq_zero_or_pos a with rfl | ha
  · exact h1 hb
  · obtain ⟨t, ht⟩ := sum_plus (k := k) (a := 0) (b := a - 1) (by omega) (by omega)
    rw [show a - 1 + 1 = a by omega] at ht
    exact .right (d := 1) (B := 7) rfl (h1 hb) ht

/-- The rule `E ::= E plus E` over the operands `a .. b`, with the operand `m` as the first one on the right. -/
theorem sum_useful {k a m b : Nat} (ham : a < m) (hmb : m ≤ b) (hb : b ≤ k) :
    UsefulAlternative (rulesOf cfg) 6 (inputOf (sumSteps k)) (sumSteps k).length (2 * a + 1) (2 * b + 2) 1 (2 * m + 1) := by
  rw [sumSteps_length]
  obtain ⟨t, ht⟩ := sum_plus (k := k) (a := a) (b := m - 1) (by omega) (by omega)
  rw [show m - 1 + 1 = m by omega] at ht
  exact ⟨4, sum_ctx (by omega) hb, .inr ⟨7, 4, rfl, ⟨t, ht⟩, sum_e hmb hb⟩⟩

/-- All of these alternatives. -/
def sumAlternatives (k : Nat) : Finset (Nat × Nat × Nat × Nat) :=
  ((Finset.range (k + 1)).sigma fun b => (Finset.range (b + 1)).sigma fun m => Finset.range m).image
    fun x : (_ : Nat) × (_ : Nat) × Nat => (2 * x.2.2 + 1, 2 * x.1 + 2, 1, 2 * x.2.1 + 1)

theorem sumAlternatives_card (k : Nat) : (sumAlternatives k).card = (k + 2).choose 3 := by
  have h2 : ∀ b, ∑ m ∈ Finset.range (b + 1), m = (b + 1).choose 2 := fun b => by
    rw [Finset.sum_range_id, Nat.choose_two_right]
  have h3 : ∀ k, ∑ b ∈ Finset.range (k + 1), (b + 1).choose 2 = (k + 2).choose 3 := by
    intro k
    induction k with
    | zero => rfl
    | succ k ih => rw [Finset.sum_range_succ, ih, Nat.add_comm]; exact (Nat.choose_succ_succ (k + 2) 2).symm
  unfold sumAlternatives
  rw [Finset.card_image_of_injOn, Finset.card_sigma]
  · simp only [Finset.card_sigma, Finset.card_range]
    rw [← h3]
    exact Finset.sum_congr rfl fun b _ => h2 b
  · rintro ⟨b, m, a⟩ _ ⟨b', m', a'⟩ _ e
    simp only [Prod.mk.injEq] at e
    obtain ⟨rfl, rfl, rfl⟩ : b = b' ∧ m = m' ∧ a = a' := by omega
    rfl

theorem sumAlternatives_useful {k : Nat} : ∀ a ∈ sumAlternatives k,
    UsefulAlternative (rulesOf cfg) 6 (inputOf (sumSteps k)) (sumSteps k).length a.1 a.2.1 a.2.2.1 a.2.2.2 := by
  intro a ha
  obtain ⟨⟨b, m, a⟩, h, rfl⟩ := Finset.mem_image.1 ha
  simp only [Finset.mem_sigma, Finset.mem_range] at h
  have h1 : b < k + 1 := h.1
  have h2 : m < b + 1 := h.2.1
  exact sum_useful (a := a) (m := m) (b := b) h.2.2 (Nat.le_of_lt_succ h2) (Nat.le_of_lt_succ h1)

/-- C67. The forest of `a plus a … plus a` with `k` operators has at least `k (k + 1) (k + 2) / 6` nodes, and building it
takes as many operations: the bounds of C43 and C54 are attained up to a constant factor. -/
theorem C67_cubic_simple {E : Env Simple.Bocage Nat} {b : Simple.Bocage} (hg : E.g = grammar) (hleo : E.leo = false)
    (hF : E.F = Simple.forest) (hb : Simple.Bocage.new E.g.forestInfo = pure b) {k : Nat} (hk : 2 * k + 2 ≤ 2 ^ 32) :
    ∃ r r', (Rec.new E b >>= Rec.session E (sumSteps k)) = pure r ∧
      (Rec.new E.counting (b, 0) >>= Rec.session E.counting (sumSteps k)) = pure r' ∧
      min ((k + 2).choose 3) (2 ^ 32) ≤ r.1.forest.graph.length ∧
      r.1.forest.graph.length ≤ b.graph.length + 54 * (2 * k + 2) ^ 3 ∧
      min ((k + 2).choose 3) (2 ^ 32) ≤ b.graph.length + r'.1.forest.2 ∧ r'.1.forest.2 ≤ 54 * (2 * k + 2) ^ 3 := by
  have hgood := sum_good (E := E) hg hleo hk
  have ho : UnaryOrdered (rulesOf cfg) := by unfold UnaryOrdered; decide
  have hB : Built cfg 6 wrap E.g := hg ▸ built
  have hs := (C02_forests cfg.rules.length cfg.numSyms).2.1 _ _ hb
  rw [← hF] at hs
  have hlen : (sumSteps k).length + 1 < 2 ^ 64 := by rw [sumSteps_length]; omega
  obtain ⟨r, h1, h2⟩ := C67_size_simple hgood ho hF hb sum_accepts (sum_differ k) sumAlternatives_useful
  obtain ⟨q, h3, h4⟩ := C54_cubic (m := fun b : Simple.Bocage => b.graph.length) hB hleo
    ho hs (hF ▸ C54_forests.1) hgood.tokens hgood.hints hlen (sum_terms k)
  obtain ⟨r', h5, h6⟩ := C67_work_simple hgood ho hF hb sum_accepts (sum_differ k) sumAlternatives_useful
  obtain ⟨q', h7, h8, -⟩ := C43_cubic hB hleo ho hs hgood.tokens hgood.hints hlen (sum_terms k)
  cases pure_inj_M (h1.symm.trans h3)
  cases pure_inj_M (h5.symm.trans h7)
  rw [sumAlternatives_card] at h2 h6
  rw [sumSteps_length] at h4 h8
  rw [Nat.one_mul] at h4
  exact ⟨r, r', h1, h5, h2, h4, h6, h8⟩

/-- C67, compact bocage. -/
theorem C67_cubic_compact {E : Env Compact.Bocage Nat} {b : Compact.Bocage} (hg : E.g = grammar) (hleo : E.leo = false)
    (hF : E.F = Compact.forest) (hb : Compact.Bocage.new E.g.forestInfo = pure b) {k : Nat} (hk : 2 * k + 2 ≤ 2 ^ 32) :
    ∃ r, (Rec.new E b >>= Rec.session E (sumSteps k)) = pure r ∧
      min ((k + 2).choose 3) (2 ^ 32) ≤ r.1.forest.graph.length ∧
      r.1.forest.graph.length ≤ b.graph.length + 9 * (54 * (2 * k + 2) ^ 3) := by
  have hgood := sum_good (E := E) hg hleo hk
  have ho : UnaryOrdered (rulesOf cfg) := by unfold UnaryOrdered; decide
  have hs := (C02_forests cfg.rules.length cfg.numSyms).2.2 b
  rw [← hF] at hs
  obtain ⟨r, h1, h2⟩ := C67_size_compact hgood ho hF hb sum_accepts (sum_differ k) sumAlternatives_useful
  obtain ⟨q, h3, h4⟩ := C54_cubic (m := fun b : Compact.Bocage => b.graph.length) (show Built cfg 6 wrap E.g from hg ▸ built) hleo
    ho hs (hF ▸ C54_forests.2) hgood.tokens hgood.hints (by rw [sumSteps_length]; omega) (sum_terms k)
  cases pure_inj_M (h1.symm.trans h3)
  rw [sumAlternatives_card] at h2
  rw [sumSteps_length] at h4
  exact ⟨r, h1, h2, h4⟩

/-! ### Examples -/

-- 1000 operators: more than 167 million entries
example {b : Simple.Bocage} (hb : Simple.Bocage.new grammar.forestInfo = pure b) :
    ∃ r, (Rec.new simpleEnv b >>= Rec.session simpleEnv (sumSteps 1000)) = pure r ∧ 167167000 ≤ r.1.forest.graph.length := by
  obtain ⟨r, _, h1, _, h2, _⟩ := C67_cubic_simple (E := simpleEnv) rfl rfl rfl hb (k := 1000) (by decide)
  have e : (1000 + 2).choose 3 = 167167000 := by decide +kernel
  rw [e] at h2
  exact ⟨r, h1, by omega⟩

end
end Gearley.Props
