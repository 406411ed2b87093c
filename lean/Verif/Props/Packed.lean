import Verif.Proofs.PackedVals
import Verif.Props.Evaluate

/-!
# C44, C45: the parse forest is packed, and the values of ambiguous parses

`Packs`, `Alternative` and `PackedVals` are defined in Spec/Packed.lean.
-/

namespace Gearley.Props
open Gearley.Spec
variable {c : Cfg} {n : Nat} {w : WrappedRoot} {α : Type} {nullable : Prop} {steps : List Step} {g0 : Nat}

/-! ### C44: packing -/

/-- C44, simple bocage. The finished node refers to a packed forest for the whole input: the node of a symbol over a range
has exactly one alternative for each rule and each split, and the alternatives refer to packed forests of the symbols of
the rule. -/
theorem C44_packed_simple {E : Env Simple.Bocage Nat} {b : Simple.Bocage} (h : GoodParse E c n w nullable steps g0)
    (ho : UnaryOrdered (rulesOf c)) (hF : E.F = Simple.forest) (hb : Simple.Bocage.new E.g.forestInfo = pure b)
    (hacc : Accepts (rulesOf c) g0 steps) :
    ∃ r x, (Rec.new E b >>= Rec.session E steps) = pure r ∧ r.2 = true ∧ Rec.finishedNode E r.1 = pure (some x) ∧
      (r.1.forest.graph.length < 2 ^ 32 →
        Packs (Simple.HasView r.1.forest.graph) (rulesOf c) (inputOf steps) g0 0 steps.length x) :=
  packed_simple h ho hF hb hacc

/-- C44, compact bocage. -/
theorem C44_packed_compact {E : Env Compact.Bocage Nat} {b : Compact.Bocage} (h : GoodParse E c n w nullable steps g0)
    (ho : UnaryOrdered (rulesOf c)) (hF : E.F = Compact.forest) (hb : Compact.Bocage.new E.g.forestInfo = pure b)
    (hacc : Accepts (rulesOf c) g0 steps) :
    ∃ r x, (Rec.new E b >>= Rec.session E steps) = pure r ∧ r.2 = true ∧ Rec.finishedNode E r.1 = pure (some x) ∧
      (r.1.forest.graph.length < 2 ^ 32 →
        Packs (Compact.HasView r.1.forest.graph) (rulesOf c) (inputOf steps) g0 0 steps.length x) :=
  packed_compact h ho hF hb hacc

/-- C44. Handles refer to one thing only, so `Packs` speaks about the nodes themselves. -/
theorem C44_view_unique : (∀ (G : List Simple.Node) h a b, Simple.HasView G h a → Simple.HasView G h b → a = b) ∧
    ∀ (G : List Nat) h a b, Compact.HasView G h a → Compact.HasView G h b → a = b :=
  ⟨fun _ _ _ _ => Simple.HasView.det, fun _ _ _ _ => Compact.HasView.det⟩

/-- C44. The alternatives of the node of a symbol over a range: no two of them have the same rule and the same split. -/
theorem C44_no_duplicates {V : Nat → View → Prop} (hV : ∀ h a b, V h a → V h b → a = b) {R : Rules} {inp : Input}
    {A i j h : Nat} (hp : Packs V R inp A i j h) {as : List (Nat × Nat)} (ha : V h (.alts as)) :
    ∃ ms : List Nat, ms.length = as.length ∧ ((as.map (·.1)).zip ms).Nodup ∧
      ∀ d m, (d, m) ∈ (as.map (·.1)).zip ms ↔ Alternative R inp A i j d m := by
  cases hp with
  | leaf hv _ => cases hV _ _ _ hv ha
  | node bs hv hn hm _ _ _ _ =>
    cases hV _ _ _ hv ha
    refine ⟨bs.map (·.2.1), by simp, ?_⟩
    have e : ((bs.map fun a => (a.1, a.2.2)).map (·.1)).zip (bs.map (·.2.1)) = bs.map fun a => (a.1, a.2.1) := by
      rw [List.map_map, List.zip_map']; rfl
    rw [e]
    exact ⟨hn, hm⟩

/-! ### C45: values -/

/-- The wrapping rule occurs once in the list of rules. (It is added by `wrap_input` of the crate `cfg`, which is called once
at gearley-default-grammar/src/lib.rs:97.) -/
def WrappedOnce (R : Rules) (w : WrappedRoot) (g0 : Nat) : Prop :=
  ∀ d d' : Nat, R[d]? = some (Rule.mk g0 w.sof (some w.innerRoot)) → R[d']? = some (Rule.mk g0 w.sof (some w.innerRoot)) → d = d'

/-- The finished node of a non-empty parse, below the wrapping rule. -/
theorem packs_root {σ : Type} {E : Env σ Nat} (h : GoodParse E c n w nullable steps g0)
    (hone : WrappedOnce (rulesOf c) w g0) (hlen : 1 < steps.length) {V : Nat → View → Prop} {x : Nat}
    (hp : Packs V (rulesOf c) (inputOf steps) g0 0 steps.length x) :
    ∃ d f l r v, V x (.alts [(d, f)]) ∧ V f (.rule l r) ∧ V l (.leaf w.sof v) ∧
      Packs V (rulesOf c) (inputOf steps) w.innerRoot 1 steps.length r := by
  obtain ⟨g1, ⟨h1, _⟩, h3, hn, h2⟩ := h.wrapping.rules
  have := h.root_eq h1
  subst this
  generalize hj : steps.length = j at hp
  generalize hi : (0 : Nat) = i at hp
  cases hp with
  | leaf _ hm => exact absurd rfl ((h.plain _).2 _ hm _ h3)
  | node as hv hnd hm hne p1 p2 p3 p4 =>
    subst hi hj
    have key : ∀ d m, Alternative (rulesOf c) (inputOf steps) g1 0 steps.length d m →
        (rulesOf c)[d]? = some ⟨g1, w.sof, some w.innerRoot⟩ ∧ m = 1 := by
      rintro d m (⟨B, hr, rfl, t, ht⟩ | ⟨B, C, hr, ⟨t, ht⟩, _⟩)
      · rcases h2 _ (List.mem_of_getElem? hr) rfl with he | he
        · simp at he
        · simp only [Rule.mk.injEq, true_and, and_true] at he
          subst he
          generalize hj : steps.length = j at ht
          generalize hi : (0 : Nat) = i at ht
          cases ht with
          | leaf => omega
          | unary hr _ => exact absurd rfl (h.wrapping.sof _ (List.mem_of_getElem? hr))
          | binary hr _ _ => exact absurd rfl (h.wrapping.sof _ (List.mem_of_getElem? hr))
      · rcases h2 _ (List.mem_of_getElem? hr) rfl with he | he
        · simp only [Rule.mk.injEq, true_and, Option.some.injEq] at he
          obtain ⟨rfl, rfl⟩ := he
          refine ⟨hr, ?_⟩
          generalize hi : (0 : Nat) = i at ht
          cases ht with
          | leaf => omega
          | unary hr _ => exact absurd rfl (h.wrapping.sof _ (List.mem_of_getElem? hr))
          | binary hr _ _ => exact absurd rfl (h.wrapping.sof _ (List.mem_of_getElem? hr))
        · simp at he
    rcases as with _ | ⟨⟨d, m, f⟩, _ | ⟨⟨d', m', f'⟩, as⟩⟩
    · exact absurd rfl hne
    · obtain ⟨hr, rfl⟩ := key d m ((hm d m).1 (by simp))
      obtain ⟨l, r, hlr⟩ := p2 d 1 f _ _ (by simp) hr
      have hpl := p3 d 1 f _ _ l r (by simp) hr hlr
      have hpr := p4 d 1 f _ _ l r (by simp) hr hlr
      have hleaf : ∀ A i j, A = w.sof → Packs V (rulesOf c) (inputOf steps) A i j l → ∃ v, V l (.leaf w.sof v) := by
        intro A i j hA hp
        cases hp with
        | leaf hv' _ => exact ⟨_, hA ▸ hv'⟩
        | node bs _ _ hm' hne' =>
        exfalso
        subst hA
        rcases bs with _ | ⟨⟨d, m, f⟩, bs⟩
        · exact absurd rfl hne'
        · rcases (hm' d m).1 (by simp) with ⟨B, hr, _⟩ | ⟨B, C, hr, _⟩ <;>
            exact absurd rfl (h.wrapping.sof _ (List.mem_of_getElem? hr))
      obtain ⟨v, hv'⟩ := hleaf _ _ _ rfl hpl
      exact ⟨d, f, l, r, v, hv, hlr, hv', hpr⟩
    · obtain ⟨hr, rfl⟩ := key d m ((hm d m).1 (by simp))
      obtain ⟨hr', rfl⟩ := key d' m' ((hm d' m').1 (by simp))
      have := hone d d' hr hr'
      subst this
      simp at hnd

/-- C45, simple bocage. Evaluation of the finished node of any non-empty parse, ambiguous or not: the values are those of
the packed forest of the user's root (`PackedVals`). Evaluating it again returns the same. `N` counts values and calls. -/
theorem C45_values_simple {E : Env Simple.Bocage Nat} {b : Simple.Bocage} (h : GoodParse E c n w nullable steps g0)
    (ho : UnaryOrdered (rulesOf c)) (hF : E.F = Simple.forest) (hb : Simple.Bocage.new E.g.forestInfo = pure b)
    (hone : WrappedOnce (rulesOf c) w g0) (hacc : Accepts (rulesOf c) g0 steps) (hlen : 1 < steps.length) :
    ∃ r x, (Rec.new E b >>= Rec.session E steps) = pure r ∧ Rec.finishedNode E r.1 = pure (some x) ∧
      (r.1.forest.graph.length < 2 ^ 32 → ∀ (ev : Evaluator α) nv nc, NullEval E.g.forestInfo ev nv nc →
        ∃ u N, PackedVals E.g.forestInfo ev nv nc (rulesOf c) (inputOf steps) w.innerRoot 1 steps.length u N ∧
          (r.1.forest.graph.length + N < 2 ^ 32 → ∃ b', r.1.forest.evaluate ev x = pure (b', u) ∧
            (r.1.forest.graph.length + 2 * N < 2 ^ 32 → ∃ b'', b'.evaluate ev x = pure (b'', u)))) := by
  obtain ⟨r, x, h1, h2, h3, h4⟩ := packed_simple h ho hF hb hacc
  obtain ⟨r', x', h1', h2', h3', hi, h4'⟩ := finished_simple h hF hb hacc
  cases pure_inj_M (h1.symm.trans h1')
  cases pure_inj_M (h3.symm.trans h3')
  refine ⟨r, x, h1, h3, fun hl ev nv nc hN => ?_⟩
  have hT := (h4' hl).2 ev nv nc hN
  obtain ⟨d, f, l, rr, v, k1, k2, k3, k4⟩ := packs_root h hone hlen (h4 hl)
  obtain ⟨u, N, k5, k6⟩ := packedVals_of_packs (Simple.evOK hT) k4
  refine ⟨u, N, k5, fun hl' => ?_⟩
  have g1 : r.1.forest.graph[x]? = some (.product d f) := by
    cases k1 with
    | product h => exact h
    | sum _ h _ => simp at h
  have g2 : r.1.forest.graph[f]? = some (.rule l rr) := by cases k2 with | rule h => exact h
  have g3 : r.1.forest.graph[l]? = some (.leaf r.1.forest.info.sof v) := by
    rw [hi, (built_forestInfo h.prepared).2.2.1]
    cases k3 with | leaf h => exact h
  rw [← hi] at k6
  obtain ⟨b', e1, e2, e3, e4⟩ := Simple.evaluate_run (Simple.evalRoot_eq g1 g2 g3) k6 hl'
  refine ⟨b', e1, fun hl2 => ?_⟩
  obtain ⟨b'', f1, _⟩ := Simple.evaluate_run (Simple.evalRoot_eq (E := ev) (b := b') (e3.fixed g1 ⟨_, _, g2⟩) (e3.other g2 (by simp))
    (v := v) (by rw [e2]; exact e3.other g3 (by simp))) (by rw [e2]; exact e3.ev k6) (by omega)
  exact ⟨b'', f1⟩

/-- C45, compact bocage. -/
theorem C45_values_compact {E : Env Compact.Bocage Nat} {b : Compact.Bocage} (h : GoodParse E c n w nullable steps g0)
    (ho : UnaryOrdered (rulesOf c)) (hF : E.F = Compact.forest) (hb : Compact.Bocage.new E.g.forestInfo = pure b)
    (hone : WrappedOnce (rulesOf c) w g0) (hacc : Accepts (rulesOf c) g0 steps) (hlen : 1 < steps.length) :
    ∃ r x, (Rec.new E b >>= Rec.session E steps) = pure r ∧ Rec.finishedNode E r.1 = pure (some x) ∧
      (r.1.forest.graph.length < 2 ^ 32 → ∀ (ev : Evaluator α) nv nc, NullEval E.g.forestInfo ev nv nc →
        ∃ u N, PackedVals E.g.forestInfo ev nv nc (rulesOf c) (inputOf steps) w.innerRoot 1 steps.length u N ∧
          (r.1.forest.graph.length + 9 * N < 2 ^ 32 → ∃ b', r.1.forest.evaluate ev x = pure (b', u) ∧
            (r.1.forest.graph.length + 18 * N < 2 ^ 32 → ∃ b'', b'.evaluate ev x = pure (b'', u)))) := by
  obtain ⟨r, x, h1, h2, h3, h4⟩ := packed_compact h ho hF hb hacc
  obtain ⟨r', x', h1', h2', h3', hi, h4'⟩ := finished_compact h hF hb hacc
  cases pure_inj_M (h1.symm.trans h1')
  cases pure_inj_M (h3.symm.trans h3')
  refine ⟨r, x, h1, h3, fun hl ev nv nc hN => ?_⟩
  have hT := (h4' hl).2 ev nv nc hN
  obtain ⟨d, f, l, rr, v, k1, k2, k3, k4⟩ := packs_root h hone hlen (h4 hl)
  obtain ⟨u, N, k5, k6⟩ := packedVals_of_packs (Compact.evOK hT) k4
  refine ⟨u, N, k5, fun hl' => ?_⟩
  have g1 : Compact.get r.1.forest.graph x = pure (.summand d f) := by
    cases k1 with
    | single h => exact h.first
    | beginSum _ h _ => simp at h
  have g2 : Compact.get r.1.forest.graph f = pure (.rule l rr) := by cases k2 with | rule h => exact h
  have g3 : Compact.get r.1.forest.graph l = pure (.leaf r.1.forest.info.sof v) := by
    rw [hi, (built_forestInfo h.prepared).2.2.1]
    cases k3 with | leaf h => exact h
  rw [← hi] at k6
  obtain ⟨b', e1, e2, e3, e4⟩ := Compact.evaluate_run (Compact.evalRoot_eq (.inl g1) g2 g3 hl) k6 hl'
  refine ⟨b', e1, fun hl2 => ?_⟩
  obtain ⟨b'', f1, _⟩ := Compact.evaluate_run (E := ev) (b := b') (r := rr) (Compact.evalRoot_eq (v := v) (d := d) (f := f) (l := l)
    (.inl (Compact.get_prefix e3 g1)) (Compact.get_prefix e3 g2)
    (by rw [e2]; exact Compact.get_prefix e3 g3) (by omega)) (by rw [e2]; exact k6.mono e3) (by omega)
  exact ⟨b'', f1⟩

/-- C45. If all rules of `A` have an external number, there is one value for each rule and split (not for each tree). -/
theorem C45_one_value_per_alternative {info : ForestInfo} {ev : Evaluator α} {nv : Nat → List α} {nc : Nat → Nat} {R : Rules}
    {inp : Input} {A i j N : Nat} {u : List α} (hp : PackedVals info ev nv nc R inp A i j u N)
    (hA : ∀ d r, R[d]? = some r → r.lhs = A → ∃ id, info.origin d = some id) (ht : ∀ v, (A, v) ∉ inp i) :
    ∃ l : List (Nat × Nat), l.Nodup ∧ (∀ d m, (d, m) ∈ l ↔ Alternative R inp A i j d m) ∧ u.length = l.length := by
  cases hp with
  | leaf hm => exact absurd hm (ht _)
  | node as hn hm _ _ _ _ =>
    refine ⟨_, hn, hm, ?_⟩
    rw [List.length_map, List.length_flatMap]
    rw [show as.map (fun a => (applyRule info ev a.rule (a.args info nv R)).length) = as.map fun _ => 1 from
      List.map_congr_left fun a ha => by
        have halt := (hm a.rule a.split).1 (List.mem_map.2 ⟨a, ha, rfl⟩)
        have : ∃ id, info.origin a.rule = some id := by
          rcases halt with ⟨B, hr, _⟩ | ⟨B, C, hr, _⟩ <;> exact hA _ _ hr rfl
        obtain ⟨id, hid⟩ := this
        simp only [applyRule, hid, List.length_singleton]]
    simp

/-- C45. A unique tree: its bottom-up values, as in C20. -/
theorem C45_unambiguous {info : ForestInfo} {ev : Evaluator α} {nv : Nat → List α} {nc : Nat → Nat} {R : Rules}
    {inp : Input} {A i j N : Nat} {u : List α} (hp : PackedVals info ev nv nc R inp A i j u N) {t : PTree}
    (ht : ∀ t', TreeOf R inp t' A i j ↔ t' = t) : u = treeVals info ev nv t := by
  induction hp generalizing t with
  | leaf hm => rw [← (ht _).1 (.leaf hm), treeVals]
  | @node A i j as hn hm hne h1 h2 h3 ih1 ih2 ih3 =>
    have htree := (ht t).2 rfl
    have only : ∀ a ∈ as, ∀ b ∈ as, (a.rule, a.split) = (b.rule, b.split) := by
      intro a ha b hb
      have key : ∀ a ∈ as, ∃ f, TreeOf R inp (.node a.rule f) A i j ∧ (a.split = j ∧ (R[a.rule]?.bind (·.rhs1)) = none ∨
          (∃ l r, f = .pair l r ∧ i + l.width = a.split) ∧ (R[a.rule]?.bind (·.rhs1)) ≠ none) := by
        intro a ha
        rcases (hm a.rule a.split).1 (List.mem_map.2 ⟨a, ha, rfl⟩) with ⟨B, hr, e, t, ht⟩ | ⟨B, C, hr, ⟨l, hl⟩, ⟨r, hr'⟩⟩
        · exact ⟨t, .unary hr ht, .inl ⟨e, by simp [hr]⟩⟩
        · exact ⟨.pair l r, .binary hr hl hr', .inr ⟨⟨l, r, rfl, hl.width⟩, by simp [hr]⟩⟩
      obtain ⟨f, k1, k2⟩ := key a ha
      obtain ⟨f', k1', k2'⟩ := key b hb
      have e := ((ht _).1 k1).trans ((ht _).1 k1').symm
      simp only [PTree.node.injEq] at e
      obtain ⟨e1, e2⟩ := e
      subst e2
      rw [e1] at k2
      rcases k2 with ⟨k2, k3⟩ | ⟨⟨l, r, rfl, k2⟩, k3⟩ <;> rcases k2' with ⟨k2', k3'⟩ | ⟨⟨l', r', e', k2'⟩, k3'⟩
      · rw [e1, k2, k2']
      · exact absurd k3 k3'
      · exact absurd k3' k3
      · cases e'; rw [e1, ← k2, ← k2']
    rcases as with _ | ⟨a, _ | ⟨b, as⟩⟩
    · exact absurd rfl hne
    · rw [List.flatMap_cons, List.flatMap_nil, List.append_nil]
      rcases (hm a.rule a.split).1 (List.mem_map.2 ⟨a, by simp, rfl⟩) with ⟨B, hr, e, s, hs⟩ | ⟨B, C, hr, ⟨l, hl⟩, ⟨r, hr'⟩⟩
      · have := (ht _).1 (.unary hr hs)
        subst this
        have hu := ih1 a (by simp) B hr (t := s) fun t' => ⟨fun h => by
          have := (ht _).1 (.unary hr h); simpa using this, fun h => h ▸ hs⟩
        have hnp : ∀ x y, s ≠ .pair x y := by rintro x y rfl; exact treeOf_pair hs
        cases s with
        | pair x y => exact absurd rfl (hnp x y)
        | leaf | node | nulling =>
          simp only [treeVals, PackedAlt.args, hr, Option.bind_some] at hu ⊢
          rw [hu]
          rfl
      · have := (ht _).1 (.binary hr hl hr')
        subst this
        have hu := ih2 a (by simp) B C hr (t := l) fun t' => ⟨fun h => by
          have := (ht _).1 (.binary hr h hr'); simp at this; exact this, fun h => h ▸ hl⟩
        have hv := ih3 a (by simp) B C hr (t := r) fun t' => ⟨fun h => by
          have := (ht _).1 (.binary hr hl h); simp at this; exact this, fun h => h ▸ hr'⟩
        simp only [treeVals, PackedAlt.args, hr, Option.bind_some]
        rw [hu, hv]
    · have := only a (by simp) b (by simp)
      simp [this] at hn

/-! ### The hypotheses hold: `a plus a plus a plus a` with `E ::= E plus E | a` -/

section
open Gearley.Example

theorem amb_plain {σ : Type} {E : Env σ Nat} (hg : E.g = grammar) (hleo : E.leo = false) :
    PlainParse E cfg 6 wrap False ambSteps 6 where
  prepared := hg ▸ built.toPrepared
  leo := hleo
  rules32 := by decide
  syms32 := by decide
  wrapping := by
    refine ⟨⟨6, by decide⟩, ?_, by unfold Terminal; decide, by unfold Terminal; decide⟩
    rintro g0 h rfl
    revert h
    decide
  tokens := by unfold TokensOK; decide
  hints := by
    intro st hst x hx
    simp only [ambSteps, List.mem_cons, List.not_mem_nil, or_false] at hst
    rcases hst with rfl | rfl | rfl | rfl | rfl | rfl | rfl | rfl <;> cases hx
  ne := by decide
  len := by decide
  honest := fun _ => by
    intro i st x hst hx
    match i with
    | 0 | 1 | 2 | 3 | 4 | 5 | 6 | 7 => cases hst; cases hx
    | i + 8 => cases hst
  plain := by
    intro i
    match i with
    | 0 | 1 | 2 | 3 | 4 | 5 | 6 | 7 => exact ⟨by decide, by unfold Terminal; decide⟩
    | k + 8 => simp [inputOf, ambSteps]
  rule := by decide

theorem amb_good {σ : Type} {E : Env σ Nat} (hg : E.g = grammar) (hleo : E.leo = false) :
    GoodParse E cfg 6 wrap False ambSteps 6 :=
  (amb_plain hg hleo).good built.acyclic

theorem amb_tree : TreeOf (rulesOf cfg) (inputOf ambSteps) (.node 3 (.pair (.leaf 1 0)
    (.node 1 (.pair (.node 4 (.pair (.node 2 (.leaf 5 1)) (.leaf 2 2)))
      (.node 1 (.pair (.node 4 (.pair (.node 2 (.leaf 5 3)) (.leaf 2 4)))
        (.node 1 (.pair (.node 4 (.pair (.node 2 (.leaf 5 5)) (.leaf 2 6))) (.node 2 (.leaf 5 7)))))))))) 6 0 ambSteps.length :=
  have a : ∀ i v, ((5, v) : Nat × Nat) ∈ inputOf ambSteps i →
      TreeOf (rulesOf cfg) (inputOf ambSteps) (.node 2 (.leaf 5 v)) 4 i (i + 1) :=
    fun _ _ h => .unary (B := 5) rfl (.leaf h)
  have p : ∀ t v i j, TreeOf (rulesOf cfg) (inputOf ambSteps) t 4 i j → ((2, v) : Nat × Nat) ∈ inputOf ambSteps j →
      TreeOf (rulesOf cfg) (inputOf ambSteps) (.node 4 (.pair t (.leaf 2 v))) 7 i (j + 1) :=
    fun _ _ _ _ h1 h2 => .binary (B := 4) (C := 2) rfl h1 (.leaf h2)
  have e : ∀ s t i j k, TreeOf (rulesOf cfg) (inputOf ambSteps) s 7 i j → TreeOf (rulesOf cfg) (inputOf ambSteps) t 4 j k →
      TreeOf (rulesOf cfg) (inputOf ambSteps) (.node 1 (.pair s t)) 4 i k :=
    fun _ _ _ _ _ h1 h2 => .binary (B := 7) (C := 4) rfl h1 h2
  .binary (B := 1) (C := 4) rfl (.leaf (inp := inputOf ambSteps) (i := 0) (v := 0) (by decide))
    (e _ _ 1 3 8 (p _ 2 1 2 (a 1 1 (by decide)) (by decide))
      (e _ _ 3 5 8 (p _ 4 3 4 (a 3 3 (by decide)) (by decide))
        (e _ _ 5 7 8 (p _ 6 5 6 (a 5 5 (by decide)) (by decide)) (a 7 7 (by decide)))))

theorem amb_accepts : Accepts (rulesOf cfg) 6 ambSteps := (amb_good (E := simpleEnv) rfl rfl).accepts amb_tree

theorem amb_once : WrappedOnce (rulesOf cfg) wrap 6 := by
  have : ∀ d : Nat, (rulesOf cfg)[d]? = some (Rule.mk 6 wrap.sof (some wrap.innerRoot)) → d = 3 := by
    intro d h
    match d with
    | 0 | 1 | 2 | 4 => revert h; decide
    | 3 => rfl
    | d + 5 => cases h
  intro d d' h h'
  rw [this d h, this d' h']

example {b : Simple.Bocage} (hb : Simple.Bocage.new grammar.forestInfo = pure b) :=
  C44_packed_simple (amb_good (E := simpleEnv) rfl rfl) (by unfold UnaryOrdered; decide) rfl hb amb_accepts
example {b : Compact.Bocage} (hb : Compact.Bocage.new grammar.forestInfo = pure b) :=
  C44_packed_compact (amb_good (E := compactEnv) rfl rfl) (by unfold UnaryOrdered; decide) rfl hb
    amb_accepts
example {b : Simple.Bocage} (hb : Simple.Bocage.new grammar.forestInfo = pure b) :=
  C45_values_simple (α := Nat) (amb_good (E := simpleEnv) rfl rfl) (by unfold UnaryOrdered; decide) rfl hb amb_once
    amb_accepts (by decide)
example {b : Compact.Bocage} (hb : Compact.Bocage.new grammar.forestInfo = pure b) :=
  C45_values_compact (α := Nat) (amb_good (E := compactEnv) rfl rfl) (by unfold UnaryOrdered; decide) rfl hb amb_once
    amb_accepts (by decide)

-- the graphs are small, and the root of `E` has three alternatives, for the splits 3, 5 and 7: rule 1 gets 1 + 3, 2 + 2 and
-- (value of the node for `a plus a`) arguments
example : (do let (_, r, _, y) ← ambSimple; pure (decide (r.1.forest.graph.length < 1000), y.2) : M _) = pure (true, [4, 4, 3]) := by
  decide +kernel
example : (do let (_, r, _, y) ← ambCompact; pure (decide (r.1.forest.graph.length < 1000), y.2) : M _) = pure (true, [3, 4, 4]) := by
  decide +kernel

-- a sum node of the simple bocage, and alternatives of the compact bocage
example : (do let (_, r, _, _) ← ambSimple; pure (r.1.forest.graph.any fun | .sum _ 3 => true | _ => false) : M _) = pure true := by
  decide +kernel

-- the rules of the user's root have external numbers
example : ∀ d r, (rulesOf cfg)[d]? = some r → r.lhs = wrap.innerRoot → ∃ id, grammar.forestInfo.origin d = some id := by
  have : grammar.forestInfo.eval = [none, some 0, some 1, none, none] := by decide +kernel
  intro d r h1 h2
  unfold ForestInfo.origin
  rw [this]
  match d with
  | 1 | 2 => exact ⟨_, rfl⟩
  | 0 | 3 | 4 => cases h1; cases h2
  | d + 5 => cases h1

end

end Gearley.Props
