import Verif.Proofs.EvalWork
import Verif.Proofs.UniquePacks
import Verif.Props.Packed
import Verif.Props.Size
import Verif.Examples.Nulls
import Mathlib.Algebra.BigOperators.Intervals

/-!
# C57: the cost of an evaluation

One round of the `while` loop of `evaluate` takes one entry from the work stack. There is no memoisation: a shared part of the
forest is evaluated again for each use. So the number of rounds is linear for unambiguous inputs, but exponential for ambiguous
ones, although the forest is of cubic size (C54). `PackedWork` and `treeRounds` are defined in Spec/EvalWork.lean.
-/

namespace Gearley.Props
open Gearley.Spec
variable {c : Cfg} {n : Nat} {w : WrappedRoot} {nullable : Prop} {steps : List Step} {g0 : Nat} {nr : Nat → Nat}

theorem prefix_simple {E : Env Simple.Bocage Nat} {b : Simple.Bocage} (hleo : E.leo = false) (hF : E.F = Simple.forest)
    (hb : Simple.Bocage.new E.g.forestInfo = pure b) {r} (h : (Rec.new E b >>= Rec.session E steps) = pure r) :
    b.graph <+: r.1.forest.graph := by
  obtain ⟨_, _, hbs⟩ := Simple.new_eq hb
  obtain ⟨g, F, la, leo, so⟩ := E
  simp only at hF hleo
  subst hF hleo
  obtain ⟨w2, hpre, _, hg, _⟩ := session_grow Simple.growSim (w := b.graph) ⟨rfl, rfl, hbs⟩ h
  rw [hg]; exact hpre

theorem prefix_compact {E : Env Compact.Bocage Nat} {b : Compact.Bocage} (hleo : E.leo = false) (hF : E.F = Compact.forest)
    {r} (h : (Rec.new E b >>= Rec.session E steps) = pure r) : b.graph <+: r.1.forest.graph := by
  obtain ⟨g, F, la, leo, so⟩ := E
  simp only at hF hleo
  subst hF hleo
  obtain ⟨w2, hpre, _, hg⟩ := session_grow Compact.growSim (w := b.graph) ⟨rfl, rfl⟩ h
  rw [hg]; exact hpre

theorem rounds_simple {E : Env Simple.Bocage Nat} {b : Simple.Bocage} (h : GoodParse E c n w nullable steps g0)
    (hF : E.F = Simple.forest) (hb : Simple.Bocage.new E.g.forestInfo = pure b)
    (hone : WrappedOnce (rulesOf c) w g0) (hacc : Accepts (rulesOf c) g0 steps) (hlen : 1 < steps.length)
    (hN : NullRounds E.g.forestInfo nr)
    (hpk : ∃ r x, (Rec.new E b >>= Rec.session E steps) = pure r ∧ r.2 = true ∧ Rec.finishedNode E r.1 = pure (some x) ∧
      (r.1.forest.graph.length < 2 ^ 32 →
        Packs (Simple.HasView r.1.forest.graph) (rulesOf c) (inputOf steps) g0 0 steps.length x)) :
    ∃ r x, (Rec.new E b >>= Rec.session E steps) = pure r ∧ Rec.finishedNode E r.1 = pure (some x) ∧
      (r.1.forest.graph.length < 2 ^ 32 → ∃ k,
        PackedWork Simple.extra nr E.g.forestInfo (rulesOf c) (inputOf steps) w.innerRoot 1 steps.length k ∧
        ((∀ d, E.g.forestInfo.removed d = none) ∨ r.1.forest.graph.length + k < 2 ^ 32 →
          ∀ {α : Type} (ev : Evaluator α), ev.Grows → ∃ res, r.1.forest.evaluate ev x = pure res ∧
            ∀ m, r.1.forest.evaluateFuel m ev x = if m ≤ k then diverge else pure res)) := by
  obtain ⟨r, x, h1, h2, h3, h4⟩ := hpk
  obtain ⟨r', x', h1', h2', h3', hi, h4'⟩ := finished_simple h hF hb hacc
  cases pure_inj_M (h1.symm.trans h1')
  cases pure_inj_M (h3.symm.trans h3')
  refine ⟨r, x, h1, h3, fun hl => ?_⟩
  obtain ⟨_, he2, hsof, _⟩ := built_forestInfo h.prepared
  have hr32 := h.rules32
  have hT := Simple.rdTables (k := (rulesOf c).length) hb (prefix_simple h.leo hF hb h1) hl hN
    (by rw [he2]; simpa using hr32) (by rw [he2]; simp [rulesOf])
  obtain ⟨d, f, l, rr, v, k1, k2, k3, k4⟩ := packs_root h hone hlen (h4 hl)
  obtain ⟨k, g, k5, k6, k7, k8⟩ := packedWork_of_packs (Simple.rdOK hT) k4
  refine ⟨k, k5, fun hk α ev hE => ?_⟩
  have g1 : r.1.forest.graph[x]? = some (.product d f) := by
    cases k1 with
    | product h => exact h
    | sum _ h _ => simp at h
  have g2 : r.1.forest.graph[f]? = some (.rule l rr) := by cases k2 with | rule h => exact h
  have g3 : r.1.forest.graph[l]? = some (.leaf r.1.forest.info.sof v) := by
    rw [hi, hsof]
    cases k3 with | leaf h => exact h
  rw [← hi] at k6
  refine Simple.evaluate_rounds hE (Simple.evalRoot_eq g1 g2 g3) k6 ?_
  rcases hk with hk | hk
  · rw [k8 hk]; exact hl
  · omega

/-- C57, simple bocage. The number `k` of rounds of `evaluate` for the finished node of a non-empty parse is that of the packed
forest: with a bound of `m ≤ k` rounds there is no result, with more rounds there is the result of `evaluate`. This holds for
all evaluators that append to the results for empty derivations; the number of results is not limited to `2 ^ 32` here. Nodes
are made for rules with removed symbols, so that a bound is needed if there are such rules. -/
theorem C57_rounds_simple {E : Env Simple.Bocage Nat} {b : Simple.Bocage} (h : GoodParse E c n w nullable steps g0)
    (ho : UnaryOrdered (rulesOf c)) (hF : E.F = Simple.forest) (hb : Simple.Bocage.new E.g.forestInfo = pure b)
    (hone : WrappedOnce (rulesOf c) w g0) (hacc : Accepts (rulesOf c) g0 steps) (hlen : 1 < steps.length)
    (hN : NullRounds E.g.forestInfo nr) :
    ∃ r x, (Rec.new E b >>= Rec.session E steps) = pure r ∧ Rec.finishedNode E r.1 = pure (some x) ∧
      (r.1.forest.graph.length < 2 ^ 32 → ∃ k,
        PackedWork Simple.extra nr E.g.forestInfo (rulesOf c) (inputOf steps) w.innerRoot 1 steps.length k ∧
        ((∀ d, E.g.forestInfo.removed d = none) ∨ r.1.forest.graph.length + k < 2 ^ 32 →
          ∀ {α : Type} (ev : Evaluator α), ev.Grows → ∃ res, r.1.forest.evaluate ev x = pure res ∧
            ∀ m, r.1.forest.evaluateFuel m ev x = if m ≤ k then diverge else pure res)) :=
  rounds_simple h hF hb hone hacc hlen hN (packed_simple h ho hF hb hacc)

theorem rounds_compact {E : Env Compact.Bocage Nat} {b : Compact.Bocage} (h : GoodParse E c n w nullable steps g0)
    (hF : E.F = Compact.forest) (hb : Compact.Bocage.new E.g.forestInfo = pure b)
    (hone : WrappedOnce (rulesOf c) w g0) (hacc : Accepts (rulesOf c) g0 steps) (hlen : 1 < steps.length)
    (hN : NullRounds E.g.forestInfo nr)
    (hpk : ∃ r x, (Rec.new E b >>= Rec.session E steps) = pure r ∧ r.2 = true ∧ Rec.finishedNode E r.1 = pure (some x) ∧
      (r.1.forest.graph.length < 2 ^ 32 →
        Packs (Compact.HasView r.1.forest.graph) (rulesOf c) (inputOf steps) g0 0 steps.length x)) :
    ∃ r x, (Rec.new E b >>= Rec.session E steps) = pure r ∧ Rec.finishedNode E r.1 = pure (some x) ∧
      (r.1.forest.graph.length < 2 ^ 32 → ∃ k,
        PackedWork Compact.extra nr E.g.forestInfo (rulesOf c) (inputOf steps) w.innerRoot 1 steps.length k ∧
        ((∀ d, E.g.forestInfo.removed d = none) ∨ r.1.forest.graph.length + 9 * k < 2 ^ 32 →
          ∀ {α : Type} (ev : Evaluator α), ev.Grows → ∃ res, r.1.forest.evaluate ev x = pure res ∧
            ∀ m, r.1.forest.evaluateFuel m ev x = if m ≤ k then diverge else pure res)) := by
  obtain ⟨r, x, h1, h2, h3, h4⟩ := hpk
  obtain ⟨r', x', h1', h2', h3', hi, h4'⟩ := finished_compact h hF hb hacc
  cases pure_inj_M (h1.symm.trans h1')
  cases pure_inj_M (h3.symm.trans h3')
  refine ⟨r, x, h1, h3, fun hl => ?_⟩
  obtain ⟨_, he2, hsof, _⟩ := built_forestInfo h.prepared
  have hr32 := h.rules32
  have hT := Compact.rdTables (k := (rulesOf c).length) hb (prefix_compact h.leo hF h1) hl hN
    (by rw [he2]; simpa using hr32) (by rw [he2]; simp [rulesOf])
  obtain ⟨d, f, l, rr, v, k1, k2, k3, k4⟩ := packs_root h hone hlen (h4 hl)
  obtain ⟨k, g, k5, k6, k7, k8⟩ := packedWork_of_packs (Compact.rdOK hT) k4
  refine ⟨k, k5, fun hk α ev hE => ?_⟩
  have g1 : Compact.get r.1.forest.graph x = pure (.summand d f) := by
    cases k1 with
    | single h => exact h.first
    | beginSum _ h _ => simp at h
  have g2 : Compact.get r.1.forest.graph f = pure (.rule l rr) := by cases k2 with | rule h => exact h
  have g3 : Compact.get r.1.forest.graph l = pure (.leaf r.1.forest.info.sof v) := by
    rw [hi, hsof]
    cases k3 with | leaf h => exact h
  rw [← hi] at k6
  refine Compact.evaluate_rounds hE (Compact.evalRoot_eq (.inl g1) g2 g3 hl) k6 ?_
  rcases hk with hk | hk
  · rw [k8 hk]; exact hl
  · omega

/-- C57, compact bocage. Here a node of up to nine bytes is made each time a rule with a removed symbol is evaluated. -/
theorem C57_rounds_compact {E : Env Compact.Bocage Nat} {b : Compact.Bocage} (h : GoodParse E c n w nullable steps g0)
    (ho : UnaryOrdered (rulesOf c)) (hF : E.F = Compact.forest) (hb : Compact.Bocage.new E.g.forestInfo = pure b)
    (hone : WrappedOnce (rulesOf c) w g0) (hacc : Accepts (rulesOf c) g0 steps) (hlen : 1 < steps.length)
    (hN : NullRounds E.g.forestInfo nr) :
    ∃ r x, (Rec.new E b >>= Rec.session E steps) = pure r ∧ Rec.finishedNode E r.1 = pure (some x) ∧
      (r.1.forest.graph.length < 2 ^ 32 → ∃ k,
        PackedWork Compact.extra nr E.g.forestInfo (rulesOf c) (inputOf steps) w.innerRoot 1 steps.length k ∧
        ((∀ d, E.g.forestInfo.removed d = none) ∨ r.1.forest.graph.length + 9 * k < 2 ^ 32 →
          ∀ {α : Type} (ev : Evaluator α), ev.Grows → ∃ res, r.1.forest.evaluate ev x = pure res ∧
            ∀ m, r.1.forest.evaluateFuel m ev x = if m ≤ k then diverge else pure res)) :=
  rounds_compact h hF hb hone hacc hlen hN (packed_compact h ho hF hb hacc)

/-- C57. The number of rounds is determined by the grammar and the input. -/
theorem C57_unique {extra : Nat → Nat} {info : ForestInfo} {R : Rules} {inp : Input} (hpl : PlainInput R inp) {A i j k k' : Nat}
    (h : PackedWork extra nr info R inp A i j k) (h' : PackedWork extra nr info R inp A i j k') : k = k' := by
  induction h generalizing k' with
  | leaf hm =>
    generalize hj : i + 1 = j at h'
    cases h' with
    | leaf => rfl
    | node as _ hm' hne =>
      obtain ⟨a, ha⟩ := List.exists_mem_of_ne_nil _ hne
      rcases (hm' a.rule a.split).1 (List.mem_map.2 ⟨a, ha, rfl⟩) with ⟨B, hr, _⟩ | ⟨B, C, hr, _⟩ <;>
        exact absurd rfl ((hpl _).2 _ hm _ (List.mem_of_getElem? hr))
  | @node A i j as hn hm hne h1 h2 h3 ih1 ih2 ih3 =>
    cases h' with
    | leaf hm' =>
      obtain ⟨a, ha⟩ := List.exists_mem_of_ne_nil _ hne
      rcases (hm a.rule a.split).1 (List.mem_map.2 ⟨a, ha, rfl⟩) with ⟨B, hr, _⟩ | ⟨B, C, hr, _⟩ <;>
        exact absurd rfl ((hpl _).2 _ hm' _ (List.mem_of_getElem? hr))
    | node bs hn' hm' hne' h1' h2' h3' =>
      have hperm : (as.map fun a => (a.rule, a.split)).Perm (bs.map fun a => (a.rule, a.split)) :=
        (List.perm_ext_iff_of_nodup hn hn').2 fun ⟨d, m⟩ => (hm d m).trans (hm' d m).symm
      have hlen := hperm.length_eq
      rw [List.length_map, List.length_map] at hlen
      have same : ∀ a ∈ as, ∀ a' ∈ bs, (a.rule, a.split) = (a'.rule, a'.split) → a.rounds info nr R = a'.rounds info nr R := by
        intro a ha a' ha' he
        simp only [Prod.mk.injEq] at he
        rcases (hm a.rule a.split).1 (List.mem_map.2 ⟨a, ha, rfl⟩) with ⟨B, hr, _⟩ | ⟨B, C, hr, _⟩
        · have e := ih1 a ha B hr (h1' a' ha' B (he.1 ▸ hr))
          simp only [WorkAlt.rounds, ← he.1, hr, Option.bind_some, e]
        · have e := ih2 a ha B C hr (he.2 ▸ h2' a' ha' B C (he.1 ▸ hr))
          have e' := ih3 a ha B C hr (he.2 ▸ h3' a' ha' B C (he.1 ▸ hr))
          simp only [WorkAlt.rounds, ← he.1, hr, Option.bind_some, e, e']
      classical
      let F : Nat × Nat → Nat := fun p => if h : ∃ a ∈ as, (a.rule, a.split) = p then h.choose.rounds info nr R else 0
      have F1 : ∀ a ∈ as, F (a.rule, a.split) = a.rounds info nr R := by
        intro a ha
        have hex : ∃ a' ∈ as, (a'.rule, a'.split) = (a.rule, a.split) := ⟨a, ha, rfl⟩
        have hF : F (a.rule, a.split) = hex.choose.rounds info nr R := by simp only [F]; rw [dif_pos hex]
        rw [hF]
        obtain ⟨a', ha', hk⟩ := List.mem_map.1 ((hperm.mem_iff).1 (List.mem_map.2 ⟨a, ha, rfl⟩))
        rw [same _ hex.choose_spec.1 a' ha' (hex.choose_spec.2.trans hk.symm), same a ha a' ha' hk.symm]
      have F2 : ∀ a ∈ bs, F (a.rule, a.split) = a.rounds info nr R := by
        intro a ha
        obtain ⟨a', ha', hk⟩ := List.mem_map.1 ((hperm.mem_iff).2 (List.mem_map.2 ⟨a, ha, rfl⟩))
        rw [← hk, F1 a' ha', same a' ha' a ha hk]
      have e1 : as.map (fun a => a.rounds info nr R) = (as.map fun a => (a.rule, a.split)).map F := by
        rw [List.map_map]; exact List.map_congr_left fun a ha => (F1 a ha).symm
      have e2 : bs.map (fun a => a.rounds info nr R) = (bs.map fun a => (a.rule, a.split)).map F := by
        rw [List.map_map]; exact List.map_congr_left fun a ha => (F2 a ha).symm
      rw [e1, e2, (hperm.map F).sum_eq, hlen]

/-- C57. If there is just one tree, the number of rounds is the sum over its nodes. -/
theorem C57_unambiguous {extra : Nat → Nat} {info : ForestInfo} {R : Rules} {inp : Input} {A i j k : Nat}
    (hp : PackedWork extra nr info R inp A i j k) {t : PTree} (ht : ∀ t', TreeOf R inp t' A i j ↔ t' = t) :
    k = treeRounds (extra 1) nr info t := by
  induction hp generalizing t with
  | leaf hm => rw [← (ht _).1 (.leaf hm), treeRounds]
  | @node A i j as hn hm hne h1 h2 h3 ih1 ih2 ih3 =>
    have only : ∀ a ∈ as, ∀ b ∈ as, (a.rule, a.split) = (b.rule, b.split) := by
      intro a ha b hb
      have key : ∀ a ∈ as, ∃ f, TreeOf R inp (.node a.rule f) A i j ∧ (a.split = j ∧ (R[a.rule]?.bind (·.rhs1)) = none ∨
          (∃ l r, f = .pair l r ∧ i + l.width = a.split) ∧ (R[a.rule]?.bind (·.rhs1)) ≠ none) := by
        intro a ha
        rcases (hm a.rule a.split).1 (List.mem_map.2 ⟨a, ha, rfl⟩) with ⟨B, hr, e, t, ht⟩ | ⟨B, C, hr, ⟨l, hl⟩, ⟨r, hr'⟩⟩
        · exact ⟨t, .unary hr ht, .inl ⟨e, by simp [hr]⟩⟩
        · exact ⟨.pair l r, .binary hr hl hr', .inr ⟨⟨l, r, rfl, hl.width⟩, by simp [hr]⟩⟩
      obtain ⟨f, k1, k2⟩ := key a ha
      obtain ⟨f', k1', k2'⟩ := key b hb
      have e := ((ht _).1 k1).trans ((ht _).1 k1').symm
      simp only [PTree.node.injEq] at e
      obtain ⟨e1, e2⟩ := e
      subst e2
      rw [e1] at k2
      rcases k2 with ⟨k2, k3⟩ | ⟨⟨l, r, rfl, k2⟩, k3⟩ <;> rcases k2' with ⟨k2', k3'⟩ | ⟨⟨l', r', e', k2'⟩, k3'⟩
      · rw [e1, k2, k2']
      · exact absurd k3 k3'
      · exact absurd k3' k3
      · cases e'; rw [e1, ← k2, ← k2']
    rcases as with _ | ⟨a, _ | ⟨b, as⟩⟩
    · exact absurd rfl hne
    · simp only [List.map_cons, List.map_nil, List.sum_cons, List.sum_nil, List.length_cons, List.length_nil, Nat.add_zero,
        Nat.zero_add]
      rcases (hm a.rule a.split).1 (List.mem_map.2 ⟨a, by simp, rfl⟩) with ⟨B, hr, e, s, hs⟩ | ⟨B, C, hr, ⟨l, hl⟩, ⟨r, hr'⟩⟩
      · have := (ht _).1 (.unary hr hs)
        subst this
        have hu := ih1 a (by simp) B hr (t := s) fun t' => ⟨fun h => by
          have := (ht _).1 (.unary hr h); simpa using this, fun h => h ▸ hs⟩
        have hnp : ∀ x y, s ≠ .pair x y := by rintro x y rfl; exact treeOf_pair hs
        have hr1 : a.rounds info nr R = match info.removed a.rule with
            | none => a.left + 2
            | some (s, _) => a.left + nr s + 5 := by simp only [WorkAlt.rounds, hr, Option.bind_some]; rfl
        have hr2 : treeRounds (extra 1) nr info (.node a.rule s) = treeRounds (extra 1) nr info s + 2 + extra 1 +
            match info.removed a.rule with
            | none => 0
            | some (s, _) => nr s + 3 := by
          cases s with
          | pair x y => exact absurd rfl (hnp x y)
          | leaf | node | nulling => rfl
        rw [hr1, hr2, ← hu]
        cases info.removed a.rule with
        | none => simp only; omega
        | some p => simp only; omega
      · have := (ht _).1 (.binary hr hl hr')
        subst this
        have hu := ih2 a (by simp) B C hr (t := l) fun t' => ⟨fun h => by
          have := (ht _).1 (.binary hr h hr'); simp at this; exact this, fun h => h ▸ hl⟩
        have hv := ih3 a (by simp) B C hr (t := r) fun t' => ⟨fun h => by
          have := (ht _).1 (.binary hr hl h); simp at this; exact this, fun h => h ▸ hr'⟩
        simp only [treeRounds, WorkAlt.rounds, hr, Option.bind_some]
        omega
    · have := only a (by simp) b (by simp)
      simp [this] at hn

/-- C57. The rounds for a tree are linear in the number of tokens, if there are no cycles. `S` bounds the symbols, `M` the rounds for a removed
symbol. -/
theorem C57_linear {e M S : Nat} {info : ForestInfo} {R : Rules} {inp : Input} (hac : UnaryAcyclic R) (hR : ∀ r ∈ R, r.lhs < S)
    (hi : ∀ i, ∀ p ∈ inp i, p.1 < S) (hM : ∀ d s dir, info.removed d = some (s, dir) → nr s ≤ M) {t : PTree} {A i j : Nat}
    (ht : TreeOf R inp t A i j) : treeRounds e nr info t ≤ 2 * (j - i) * ((5 + e + M) * (S + 1)) := by
  obtain ⟨rank, ho, hrk⟩ : ∃ rank : Nat → Nat, (∀ r ∈ R, r.rhs1 = none → rank r.lhs < rank r.rhs0) ∧ ∀ A, A < S → rank A + 1 ≤ S := by
    obtain ⟨rank, ho⟩ := hac
    have hmono : ∀ a b, a ≤ b → ∀ x ∈ (List.range S).filter (fun x => decide (rank x < a)),
        x ∈ (List.range S).filter (fun x => decide (rank x < b)) := by
      intro a b hab x hx
      simp only [List.mem_filter, List.mem_range, decide_eq_true_eq] at hx ⊢
      omega
    have hnd : ∀ a, ((List.range S).filter (fun x => decide (rank x < a))).Nodup := fun a => List.nodup_range.filter _
    have hstep : ∀ A b, A < S → rank A < b → ((List.range S).filter (fun x => decide (rank x < rank A))).length <
        ((List.range S).filter (fun x => decide (rank x < b))).length := by
      intro A b hA hb
      have hnot : A ∉ (List.range S).filter (fun x => decide (rank x < rank A)) := by simp
      have := (List.nodup_cons.2 ⟨hnot, hnd _⟩).subperm (l₂ := (List.range S).filter (fun x => decide (rank x < b))) (by
        intro x hx
        rcases List.mem_cons.1 hx with rfl | hx
        · simp [hA, hb]
        · exact hmono _ _ (Nat.le_of_lt hb) x hx)
      simpa using this.length_le
    refine ⟨fun A => ((List.range S).filter (fun x => decide (rank x < rank A))).length, fun r hr hn =>
      hstep _ _ (hR r hr) (ho r hr hn), fun A hA => ?_⟩
    have h1 := hstep A (rank A + 1) hA (Nat.lt_succ_self _)
    have h2 := List.length_filter_le (fun x => decide (rank x < rank A + 1)) (List.range S)
    rw [List.length_range] at h2
    exact Nat.le_trans h1 h2
  have key : i < j ∧ treeRounds e nr info t + (5 + e + M) * rank A + (5 + e + M) * (S + 1) ≤ 2 * (j - i) * ((5 + e + M) * (S + 1)) := by
    generalize hc : 5 + e + M = c1
    have hmul : ∀ A, A < S → c1 * rank A + c1 ≤ c1 * S := fun A hA => by
      rw [← Nat.mul_succ]; exact Nat.mul_le_mul_left _ (hrk A hA)
    have hS : c1 * (S + 1) = c1 * S + c1 := Nat.mul_succ _ _
    generalize hK : c1 * (S + 1) = K at hS ⊢
    clear hK
    induction ht with
    | @leaf A v i hm =>
      have := hmul A (hi i _ hm)
      refine ⟨by omega, ?_⟩
      rw [treeRounds, Nat.add_sub_cancel_left]
      omega
    | @unary d A B t i j hr ht ih =>
      obtain ⟨h1, ih⟩ := ih
      refine ⟨h1, ?_⟩
      have hlt := ho _ (List.mem_of_getElem? hr) rfl
      simp only at hlt
      have hcost : treeRounds e nr info (.node d t) ≤ treeRounds e nr info t + c1 := by
        have hnp : ∀ x y, t ≠ .pair x y := by rintro x y rfl; exact treeOf_pair ht
        have hr2 : treeRounds e nr info (.node d t) = treeRounds e nr info t + 2 + e +
            match info.removed d with
            | none => 0
            | some (s, _) => nr s + 3 := by
          cases t with
          | pair x y => exact absurd rfl (hnp x y)
          | leaf | node | nulling => rfl
        rw [hr2]
        cases hrem : info.removed d with
        | none => simp only; omega
        | some p =>
          obtain ⟨s, dir⟩ := p
          have := hM d s dir hrem
          simp only; omega
      have hAB : c1 * rank A + c1 ≤ c1 * rank B := by rw [← Nat.mul_succ]; exact Nat.mul_le_mul_left _ hlt
      omega
    | @binary d A B C l r i m j hr hl hr' ih1 ih2 =>
      obtain ⟨h1, ih1⟩ := ih1
      obtain ⟨h2, ih2⟩ := ih2
      refine ⟨by omega, ?_⟩
      have := hmul A (hR _ (List.mem_of_getElem? hr))
      have hw : 2 * (j - i) * K = 2 * (m - i) * K + 2 * (j - m) * K := by
        rw [← Nat.add_mul, ← Nat.mul_add]; congr 2; omega
      have hcost : treeRounds e nr info (.node d (.pair l r)) = treeRounds e nr info l + treeRounds e nr info r + 5 + e := by
        simp only [treeRounds]; omega
      rw [hw, hcost]
      omega
  omega

/-- C57. The rounds for the only tree are linear in the number of tokens, for every order of rules with one symbol. The
symbols of such rules at the top of the tree are different. -/
theorem C57_linear_tree {e M S : Nat} {info : ForestInfo} {R : Rules} {inp : Input} (hR : ∀ r ∈ R, r.lhs < S)
    (hi : ∀ i, ∀ p ∈ inp i, p.1 < S) (hM : ∀ d s dir, info.removed d = some (s, dir) → nr s ≤ M) {t : PTree} {A i j : Nat}
    (ht : TreeOf R inp t A i j) (hu : ∀ t', TreeOf R inp t' A i j → t' = t) :
    treeRounds e nr info t ≤ 2 * (j - i) * ((5 + e + M) * (S + 1)) := by
  have key : i < j ∧ treeRounds e nr info t + (5 + e + M) * (S - spine t) + (5 + e + M) * (S + 1) ≤ 2 * (j - i) * ((5 + e + M) * (S + 1)) := by
    generalize hc : 5 + e + M = c1
    have hS : c1 * (S + 1) = c1 * S + c1 := Nat.mul_succ _ _
    generalize hK : c1 * (S + 1) = K at hS ⊢
    clear hK
    induction ht with
    | @leaf A v i hm =>
      refine ⟨by omega, ?_⟩
      rw [treeRounds, Nat.add_sub_cancel_left]
      simp only [spine, Nat.sub_zero]
      omega
    | @unary d A B t i j hr ht ih =>
      obtain ⟨h1, ih⟩ := ih fun t' ht' => by have := hu _ (.unary hr ht'); simpa using this
      refine ⟨h1, ?_⟩
      have hlt := spine_lt hR hi (.unary hr ht) hu
      have hsp : spine (.node d t) = spine t + 1 := by
        cases t with
        | pair x y => exact absurd ht treeOf_pair
        | leaf | node | nulling => rfl
      have hcost : treeRounds e nr info (.node d t) ≤ treeRounds e nr info t + c1 := by
        have hnp : ∀ x y, t ≠ .pair x y := by rintro x y rfl; exact treeOf_pair ht
        have hr2 : treeRounds e nr info (.node d t) = treeRounds e nr info t + 2 + e +
            match info.removed d with
            | none => 0
            | some (s, _) => nr s + 3 := by
          cases t with
          | pair x y => exact absurd rfl (hnp x y)
          | leaf | node | nulling => rfl
        rw [hr2]
        cases hrem : info.removed d with
        | none => simp only; omega
        | some p =>
          obtain ⟨s, dir⟩ := p
          have := hM d s dir hrem
          simp only; omega
      have hAB : c1 * (S - spine (.node d t)) + c1 ≤ c1 * (S - spine t) := by
        rw [← Nat.mul_succ]; exact Nat.mul_le_mul_left _ (by omega)
      omega
    | @binary d A B C l r i m j hr hl hr' ih1 ih2 =>
      obtain ⟨h1, ih1⟩ := ih1 fun t' ht' => by have := hu _ (.binary hr ht' hr'); simp at this; exact this
      obtain ⟨h2, ih2⟩ := ih2 fun t' ht' => by have := hu _ (.binary hr hl ht'); simp at this; exact this
      refine ⟨by omega, ?_⟩
      have hsp : spine (.node d (.pair l r)) = 0 := rfl
      have hw : 2 * (j - i) * K = 2 * (m - i) * K + 2 * (j - m) * K := by
        rw [← Nat.add_mul, ← Nat.mul_add]; congr 2; omega
      have hcost : treeRounds e nr info (.node d (.pair l r)) = treeRounds e nr info l + treeRounds e nr info r + 5 + e := by
        simp only [treeRounds]; omega
      rw [hw, hcost, hsp, Nat.sub_zero]
      omega
  omega

theorem lhs_lt_of_built {g : DefaultGrammar} (hB : Prepared c n w g) : ∀ r ∈ rulesOf c, r.lhs < c.numSyms := by
  obtain ⟨depth, hP⟩ := hB.processed
  intro r hr
  obtain ⟨cr, hcr, rfl⟩ := List.mem_map.1 hr
  exact hP.lhs_lt cr hcr

theorem input_lt {k : Nat} (h : TokensOK k steps) : ∀ i, ∀ p ∈ inputOf steps i, p.1 < k := by
  intro i p hp
  unfold inputOf at hp
  cases hst : steps[i]? with
  | none => rw [hst] at hp; simp at hp
  | some st => rw [hst] at hp; exact (h st (List.mem_of_getElem? hst) p hp).1

/-- C57, simple bocage, for every order of rules with one symbol: if the input has just one tree, the number of rounds is the sum
over the nodes of the tree. -/
theorem C57_rounds_one_simple {E : Env Simple.Bocage Nat} {b : Simple.Bocage} (h : GoodParse E c n w nullable steps g0)
    (hF : E.F = Simple.forest) (hb : Simple.Bocage.new E.g.forestInfo = pure b)
    (hone : WrappedOnce (rulesOf c) w g0) (hacc : Accepts (rulesOf c) g0 steps) (hlen : 1 < steps.length)
    (hN : NullRounds E.g.forestInfo nr) {t : PTree}
    (ht : ∀ t', TreeOf (rulesOf c) (inputOf steps) t' w.innerRoot 1 steps.length ↔ t' = t) :
    ∃ r x, (Rec.new E b >>= Rec.session E steps) = pure r ∧ Rec.finishedNode E r.1 = pure (some x) ∧
      (r.1.forest.graph.length < 2 ^ 32 →
        ((∀ d, E.g.forestInfo.removed d = none) ∨
          r.1.forest.graph.length + treeRounds (Simple.extra 1) nr E.g.forestInfo t < 2 ^ 32 →
          ∀ {α : Type} (ev : Evaluator α), ev.Grows → ∃ res, r.1.forest.evaluate ev x = pure res ∧
            ∀ m, r.1.forest.evaluateFuel m ev x =
              if m ≤ treeRounds (Simple.extra 1) nr E.g.forestInfo t then diverge else pure res)) := by
  obtain ⟨r, x, h1, h2, h3⟩ := rounds_simple h hF hb hone hacc hlen hN
    (packed_one_simple h hF hb hone hacc hlen fun t' ht' => (ht t').1 ht')
  refine ⟨r, x, h1, h2, fun hl => ?_⟩
  obtain ⟨k, h4, h5⟩ := h3 hl
  rw [← C57_unambiguous h4 ht]
  exact h5

/-- C57, simple bocage. If the input has just one tree, `evaluate` returns after a linear number of rounds. -/
theorem C57_linear_simple {E : Env Simple.Bocage Nat} {b : Simple.Bocage} (h : GoodParse E c n w nullable steps g0)
    (hF : E.F = Simple.forest) (hb : Simple.Bocage.new E.g.forestInfo = pure b)
    (hone : WrappedOnce (rulesOf c) w g0) (hacc : Accepts (rulesOf c) g0 steps) (hlen : 1 < steps.length)
    (hN : NullRounds E.g.forestInfo nr) {M : Nat} (hM : ∀ d s dir, E.g.forestInfo.removed d = some (s, dir) → nr s ≤ M)
    {t : PTree} (ht : ∀ t', TreeOf (rulesOf c) (inputOf steps) t' w.innerRoot 1 steps.length ↔ t' = t) :
    ∃ r x, (Rec.new E b >>= Rec.session E steps) = pure r ∧ Rec.finishedNode E r.1 = pure (some x) ∧
      (r.1.forest.graph.length + 2 * steps.length * ((5 + M) * (c.numSyms + 1)) < 2 ^ 32 → ∀ {α : Type} (ev : Evaluator α),
        ev.Grows → ∃ res, r.1.forest.evaluate ev x = pure res ∧
          ∀ m, 2 * steps.length * ((5 + M) * (c.numSyms + 1)) ≤ m → r.1.forest.evaluateFuel m ev x = pure res) := by
  obtain ⟨r, x, h1, h2, h3⟩ := C57_rounds_one_simple h hF hb hone hacc hlen hN ht
  refine ⟨r, x, h1, h2, fun hl α ev hE => ?_⟩
  have h5 := h3 (by omega)
  have hle := C57_linear_tree (e := Simple.extra 1) (nr := nr) (lhs_lt_of_built h.prepared) (input_lt h.tokens) hM ((ht t).2 rfl)
    fun t' ht' => (ht t').1 ht'
  generalize treeRounds (Simple.extra 1) nr E.g.forestInfo t = k at h5 hle
  have hlt : k < 2 * steps.length * ((5 + M) * (c.numSyms + 1)) := by
    refine Nat.lt_of_le_of_lt hle ?_
    show 2 * (steps.length - 1) * ((5 + 0 + M) * (c.numSyms + 1)) < _
    rw [Nat.add_zero]
    exact Nat.mul_lt_mul_of_pos_right (by omega) (Nat.mul_pos (by omega) (by omega))
  obtain ⟨res, g1, g2⟩ := h5 (.inr (by omega)) ev hE
  exact ⟨res, g1, fun m hm => by rw [g2, if_neg (by omega)]⟩

/-- C57, compact bocage, for every order of rules with one symbol: if the input has just one tree, the number of rounds is the sum
over the nodes of the tree. -/
theorem C57_rounds_one_compact {E : Env Compact.Bocage Nat} {b : Compact.Bocage} (h : GoodParse E c n w nullable steps g0)
    (hF : E.F = Compact.forest) (hb : Compact.Bocage.new E.g.forestInfo = pure b)
    (hone : WrappedOnce (rulesOf c) w g0) (hacc : Accepts (rulesOf c) g0 steps) (hlen : 1 < steps.length)
    (hN : NullRounds E.g.forestInfo nr) {t : PTree}
    (ht : ∀ t', TreeOf (rulesOf c) (inputOf steps) t' w.innerRoot 1 steps.length ↔ t' = t) :
    ∃ r x, (Rec.new E b >>= Rec.session E steps) = pure r ∧ Rec.finishedNode E r.1 = pure (some x) ∧
      (r.1.forest.graph.length < 2 ^ 32 →
        ((∀ d, E.g.forestInfo.removed d = none) ∨
          r.1.forest.graph.length + 9 * treeRounds (Compact.extra 1) nr E.g.forestInfo t < 2 ^ 32 →
          ∀ {α : Type} (ev : Evaluator α), ev.Grows → ∃ res, r.1.forest.evaluate ev x = pure res ∧
            ∀ m, r.1.forest.evaluateFuel m ev x =
              if m ≤ treeRounds (Compact.extra 1) nr E.g.forestInfo t then diverge else pure res)) := by
  obtain ⟨r, x, h1, h2, h3⟩ := rounds_compact h hF hb hone hacc hlen hN
    (packed_one_compact h hF hb hone hacc hlen fun t' ht' => (ht t').1 ht')
  refine ⟨r, x, h1, h2, fun hl => ?_⟩
  obtain ⟨k, h4, h5⟩ := h3 hl
  rw [← C57_unambiguous h4 ht]
  exact h5

/-- C57, compact bocage. -/
theorem C57_linear_compact {E : Env Compact.Bocage Nat} {b : Compact.Bocage} (h : GoodParse E c n w nullable steps g0)
    (hF : E.F = Compact.forest) (hb : Compact.Bocage.new E.g.forestInfo = pure b)
    (hone : WrappedOnce (rulesOf c) w g0) (hacc : Accepts (rulesOf c) g0 steps) (hlen : 1 < steps.length)
    (hN : NullRounds E.g.forestInfo nr) {M : Nat} (hM : ∀ d s dir, E.g.forestInfo.removed d = some (s, dir) → nr s ≤ M)
    {t : PTree} (ht : ∀ t', TreeOf (rulesOf c) (inputOf steps) t' w.innerRoot 1 steps.length ↔ t' = t) :
    ∃ r x, (Rec.new E b >>= Rec.session E steps) = pure r ∧ Rec.finishedNode E r.1 = pure (some x) ∧
      (r.1.forest.graph.length + 18 * steps.length * ((6 + M) * (c.numSyms + 1)) < 2 ^ 32 → ∀ {α : Type} (ev : Evaluator α),
        ev.Grows → ∃ res, r.1.forest.evaluate ev x = pure res ∧
          ∀ m, 2 * steps.length * ((6 + M) * (c.numSyms + 1)) ≤ m → r.1.forest.evaluateFuel m ev x = pure res) := by
  obtain ⟨r, x, h1, h2, h3⟩ := C57_rounds_one_compact h hF hb hone hacc hlen hN ht
  refine ⟨r, x, h1, h2, fun hl α ev hE => ?_⟩
  have h5 := h3 (by omega)
  have hle := C57_linear_tree (e := Compact.extra 1) (nr := nr) (lhs_lt_of_built h.prepared) (input_lt h.tokens) hM ((ht t).2 rfl)
    fun t' ht' => (ht t').1 ht'
  generalize treeRounds (Compact.extra 1) nr E.g.forestInfo t = k at h5 hle
  have hlt : k < 2 * steps.length * ((6 + M) * (c.numSyms + 1)) := by
    refine Nat.lt_of_le_of_lt hle ?_
    show 2 * (steps.length - 1) * ((5 + 1 + M) * (c.numSyms + 1)) < _
    exact Nat.mul_lt_mul_of_pos_right (by omega) (Nat.mul_pos (by omega) (by omega))
  have hm : 18 * steps.length * ((6 + M) * (c.numSyms + 1)) = 9 * (2 * steps.length * ((6 + M) * (c.numSyms + 1))) := by ring
  obtain ⟨res, g1, g2⟩ := h5 (.inr (by omega)) ev hE
  exact ⟨res, g1, fun m hm => by rw [g2, if_neg (by omega)]⟩

/-! ### Exponential: `a plus a … plus a` with `E ::= E plus E | a` -/

section
open Gearley.Example

/-- The input `sof a plus a … plus a` with `k` operators. -/
def plusSteps (k : Nat) : List Step :=
  (List.range (2 * k + 2)).map fun i => (.keep, [(if i = 0 then 1 else if i % 2 = 1 then 5 else 2, 0)])

theorem plusSteps_length (k : Nat) : (plusSteps k).length = 2 * k + 2 := by simp [plusSteps]

theorem plus_input {k i : Nat} (hi : i < 2 * k + 2) :
    inputOf (plusSteps k) i = [(if i = 0 then 1 else if i % 2 = 1 then 5 else 2, 0)] := by
  simp [inputOf, plusSteps, List.getElem?_map, List.getElem?_range hi]

theorem plus_input_none {k i : Nat} (hi : 2 * k + 2 ≤ i) : inputOf (plusSteps k) i = [] := by
  simp [inputOf, plusSteps, hi]

theorem plus_mem {k : Nat} {st : Step} (h : st ∈ plusSteps k) :
    ∃ a, (a = 1 ∨ a = 5 ∨ a = 2) ∧ st = (.keep, [(a, 0)]) := by
  obtain ⟨i, _, rfl⟩ := List.mem_map.1 h
  refine ⟨_, ?_, rfl⟩
  split
  · simp
  · split <;> simp

theorem plus_terms (k : Nat) : ∀ st ∈ plusSteps k, (st.2.map (·.1)).Nodup ∧ Terminals cfg 6 (st.2.map (·.1)) := by
  intro st hst
  obtain ⟨a, ha, rfl⟩ := plus_mem hst
  rcases ha with rfl | rfl | rfl <;> exact ⟨by decide, by unfold Terminals Terminal; decide⟩

theorem plus_plain {σ : Type} {E : Env σ Nat} (hg : E.g = grammar) (hleo : E.leo = false) {k : Nat} (hk : k < 2 ^ 32) :
    PlainParse E cfg 6 wrap False (plusSteps k) 6 where
  prepared := hg ▸ built.toPrepared
  leo := hleo
  rules32 := by decide
  syms32 := by decide
  wrapping := (amb_plain hg hleo).wrapping
  tokens := by
    intro st hst p hp
    obtain ⟨a, ha, rfl⟩ := plus_mem hst
    cases List.mem_singleton.1 hp
    rcases ha with rfl | rfl | rfl <;> decide
  hints := by
    intro st hst x hx
    obtain ⟨a, ha, rfl⟩ := plus_mem hst
    cases hx
  ne := by
    intro h
    have := congrArg List.length h
    rw [plusSteps_length] at this
    simp at this
  len := by rw [plusSteps_length]; omega
  honest := fun _ => by
    intro i st x hst hx
    obtain ⟨a, ha, rfl⟩ := plus_mem (List.mem_of_getElem? hst)
    cases hx
  plain := plain_of_terms (plus_terms k)
  rule := by decide

theorem plus_good {σ : Type} {E : Env σ Nat} (hg : E.g = grammar) (hleo : E.leo = false) {k : Nat} (hk : k < 2 ^ 32) :
    GoodParse E cfg 6 wrap False (plusSteps k) 6 :=
  (plus_plain hg hleo hk).good built.acyclic

theorem plus_tree {k : Nat} : ∀ (p i : Nat), i % 2 = 1 → i + 2 * p + 1 ≤ 2 * k + 2 →
    ∃ t, TreeOf (rulesOf cfg) (inputOf (plusSteps k)) t 4 i (i + 2 * p + 1)
  | 0, i, h1, h2 => ⟨_, .unary (d := 2) (B := 5) rfl (.leaf (v := 0) (by
      rw [plus_input (by omega), if_neg (by omega), if_pos h1]; simp))⟩
  | p + 1, i, h1, h2 => by
    obtain ⟨t, ht⟩ := plus_tree (k := k) 0 i h1 (by omega)
    obtain ⟨u, hu⟩ := plus_tree (k := k) p (i + 2) (by omega) (by omega)
    have hp : TreeOf (rulesOf cfg) (inputOf (plusSteps k)) (.leaf 2 0) 2 (i + 1) (i + 1 + 1) := .leaf (by
      rw [plus_input (by omega), if_neg (by omega), if_neg (by omega)]; simp)
    refine ⟨.node 1 (.pair (.node 4 (.pair t (.leaf 2 0))) u), ?_⟩
    rw [show i + 2 * (p + 1) + 1 = i + 2 + 2 * p + 1 by omega]
    exact .binary (d := 1) (B := 7) (C := 4) rfl (.binary (d := 4) (B := 4) (C := 2) (k := i + 1) rfl ht hp) hu

theorem plus_once : WrappedOnce (rulesOf cfg) wrap 6 := amb_once

theorem plus_accepts {k : Nat} : Accepts (rulesOf cfg) 6 (plusSteps k) := by
  obtain ⟨t, ht⟩ := plus_tree (k := k) k 1 (by omega) (by omega)
  have hs : TreeOf (rulesOf cfg) (inputOf (plusSteps k)) (.leaf 1 0) 1 0 1 :=
    .leaf (by rw [plus_input (by omega)]; simp)
  have := TreeOf.binary (d := 3) (A := 6) (B := 1) (C := 4) rfl hs ht
  obtain ⟨u, h1, h2, h3⟩ := this.derives
  exact ⟨u, by rw [plusSteps_length]; omega, h2, h1⟩

theorem sum_keys_le {F : Nat × Nat → Nat} {f : WorkAlt → Nat} {as : List WorkAlt} {ks : List (Nat × Nat)} (hks : ks.Nodup)
    (hn : (as.map fun a => (a.rule, a.split)).Nodup) (hsub : ∀ x ∈ ks, x ∈ as.map fun a => (a.rule, a.split))
    (hF : ∀ a ∈ as, F (a.rule, a.split) ≤ f a) : (ks.map F).sum ≤ (as.map f).sum := by
  refine Nat.le_trans ?_ (sum_le_sum_map hF)
  rw [show (as.map fun a => F (a.rule, a.split)) = (as.map fun a => (a.rule, a.split)).map F by rw [List.map_map]; rfl]
  rw [← List.sum_toFinset F hks, ← List.sum_toFinset F hn]
  refine Finset.sum_le_sum_of_subset fun x hx => ?_
  rw [List.mem_toFinset] at hx ⊢
  exact hsub x hx

theorem sum_pow {p : Nat} (hp : 0 < p) : 3 ^ p ≤ ((List.range p).map fun q => 3 ^ q + 3 ^ (p - 1 - q) + 1).sum := by
  have h1 : ∀ p, 2 * ((List.range p).map fun q => 3 ^ q).sum + 1 = 3 ^ p := by
    intro p
    induction p with
    | zero => rfl
    | succ p ih => rw [List.range_succ, List.map_append, List.sum_append, Nat.pow_succ]; simp; omega
  have h2 : ((List.range p).map fun q => 3 ^ (p - 1 - q)).sum = ((List.range p).map fun q => 3 ^ q).sum :=
    Finset.sum_range_reflect (fun q => 3 ^ q) p
  have h3 : ((List.range p).map fun q => 3 ^ q + 3 ^ (p - 1 - q) + 1).sum =
      ((List.range p).map fun q => 3 ^ q).sum + ((List.range p).map fun q => 3 ^ (p - 1 - q)).sum + p := by
    rw [List.sum_map_add, List.sum_map_add]
    simp
  rw [h3, h2, ← h1 p]; omega

theorem plus_norule {d : Nat} {r : Rule} (h : (rulesOf cfg)[d]? = some r) : r.lhs ≠ 2 := by
  match d, h with
  | 0, h | 1, h | 2, h | 3, h | 4, h =>
    have e := Option.some.inj h
    subst e
    decide
  | d + 5, h => cases h

theorem plus_width {k : Nat} {t : PTree} {i j : Nat}
    (ht : TreeOf (rulesOf cfg) (inputOf (plusSteps k)) t 2 i j) : j = i + 1 := by
  generalize hC : (2 : Nat) = C at ht
  cases ht with
  | leaf => rfl
  | unary hr' _ => exact absurd hC.symm (plus_norule hr')
  | binary hr' _ _ => exact absurd hC.symm (plus_norule hr')

theorem plus_work {extra nr : Nat → Nat} {info : ForestInfo} {k : Nat} : ∀ (p i r : Nat), i % 2 = 1 → i + 2 * p + 1 ≤ 2 * k + 2 →
    PackedWork extra nr info (rulesOf cfg) (inputOf (plusSteps k)) 4 i (i + 2 * p + 1) r → 3 ^ p ≤ r := by
  intro p
  induction p using Nat.strong_induction_on with
  | _ p ih =>
    intro i r h1 h2 hr
    generalize hj : i + 2 * p + 1 = j at hr
    have h5 : ∀ {i : Nat}, i % 2 = 1 → i < 2 * k + 2 → inputOf (plusSteps k) i = [(5, 0)] := fun ho hi => by
      rw [plus_input hi, if_neg (by omega), if_pos ho]
    cases hr with
    | leaf hm => rw [h5 h1 (by omega)] at hm; simp at hm
    | node as hn hm hne k1 k2 k3 =>
      -- the alternatives
      have hsub : ∀ x ∈ (List.range p).map (fun q => (1, i + 2 * q + 2)), x ∈ as.map fun a => (a.rule, a.split) := by
        intro x hx
        obtain ⟨q, hq, rfl⟩ := List.mem_map.1 hx
        rw [List.mem_range] at hq
        refine (hm _ _).2 (.inr ⟨7, 4, rfl, ?_, ?_⟩)
        · obtain ⟨t, ht⟩ := plus_tree (k := k) q i h1 (by omega)
          exact ⟨_, .binary (d := 4) (B := 4) (C := 2) (k := i + 2 * q + 1) rfl ht (.leaf (v := 0) (by
            rw [plus_input (by omega), if_neg (by omega), if_neg (by omega)]; simp))⟩
        · obtain ⟨t, ht⟩ := plus_tree (k := k) (p - 1 - q) (i + 2 * q + 2) (by omega) (by omega)
          rw [show i + 2 * q + 2 + 2 * (p - 1 - q) + 1 = j by omega] at ht
          exact ⟨t, ht⟩
      let F : Nat × Nat → Nat := fun x =>
        if x.1 = 1 ∧ ∃ q, q < p ∧ x.2 = i + 2 * q + 2 then 3 ^ ((x.2 - i - 2) / 2) + 3 ^ (p - 1 - (x.2 - i - 2) / 2) + 1 else 0
      have hle := sum_keys_le (F := F) (f := fun a => a.rounds info nr (rulesOf cfg)) (as := as)
        (ks := (List.range p).map (fun q => (1, i + 2 * q + 2)))
        (List.nodup_range.map fun a b h => by simp at h; omega) hn hsub (by
          intro a ha
          simp only [F]
          split
          · rename_i hq
            obtain ⟨ha1, q, hq, hs⟩ := hq
            have hrule : (rulesOf cfg)[a.rule]? = some ⟨4, 7, some 4⟩ := by rw [ha1]; rfl
            have e1 : (a.split - i - 2) / 2 = q := by omega
            rw [e1]
            have hr := ih (p - 1 - q) (by omega) (i + 2 * q + 2) a.right (by omega) (by omega) (by
              have := k3 a ha _ _ hrule
              rwa [hs, ← hj, show i + 2 * p + 1 = i + 2 * q + 2 + 2 * (p - 1 - q) + 1 by omega] at this)
            have hl : 3 ^ q ≤ a.left := by
              have h7 := k2 a ha _ _ hrule
              rw [hs] at h7
              generalize hA : (7 : Nat) = A at h7
              generalize he : i + 2 * q + 2 = e at h7
              generalize a.left = left at h7
              cases h7 with
              | leaf hm' => subst hA; rw [h5 h1 (by omega)] at hm'; simp at hm'
              | node bs hn' hm' hne' g1 g2 g3 =>
                subst hA
                obtain ⟨b, hb⟩ := List.exists_mem_of_ne_nil _ hne'
                have hb4 : b.rule = 4 ∧ b.split = i + 2 * q + 1 := by
                  have hlt : ∀ d B C, (rulesOf cfg)[d]? = some (Rule.mk 7 B C) → d = 4 ∧ B = 4 ∧ C = some 2 := by
                    intro d B C h
                    match d with
                    | 0 | 1 | 2 | 3 => cases h
                    | 4 => cases h; exact ⟨rfl, rfl, rfl⟩
                    | d + 5 => cases h
                  rcases (hm' b.rule b.split).1 (List.mem_map.2 ⟨b, hb, rfl⟩) with ⟨B, hr', _⟩ | ⟨B, C, hr', _, t, ht⟩
                  · have := (hlt _ _ _ hr').2.2
                    cases this
                  · obtain ⟨e1, e2, e3⟩ := hlt _ _ _ hr'
                    cases e3
                    refine ⟨e1, ?_⟩
                    have := plus_width ht
                    omega
                have hrule' : (rulesOf cfg)[b.rule]? = some ⟨7, 4, some 2⟩ := by rw [hb4.1]; rfl
                have := ih q (by omega) i b.left h1 (by omega) (by
                  have := g2 b hb _ _ hrule'
                  rwa [hb4.2] at this)
                have hle := le_sum_of_mem (List.mem_map.2 ⟨b, hb, rfl⟩ : b.rounds info nr (rulesOf cfg) ∈ bs.map fun a => a.rounds info nr (rulesOf cfg))
                have hb5 : b.rounds info nr (rulesOf cfg) = b.left + b.right + 5 := by
                  simp only [WorkAlt.rounds, hrule', Option.bind_some]
                omega
            have h5 : a.rounds info nr (rulesOf cfg) = a.left + a.right + 5 := by
              simp only [WorkAlt.rounds, hrule, Option.bind_some]
            omega
          · omega)
      rw [List.map_map] at hle
      have hsum : ((List.range p).map (F ∘ fun q => (1, i + 2 * q + 2))) =
          (List.range p).map fun q => 3 ^ q + 3 ^ (p - 1 - q) + 1 := by
        refine List.map_congr_left fun q hq => ?_
        rw [List.mem_range] at hq
        simp only [Function.comp]
        show (if _ then _ else _) = _
        rw [if_pos ⟨rfl, q, hq, rfl⟩, show (i + 2 * q + 2 - i - 2) / 2 = q by omega]
      rw [hsum] at hle
      have hpos : 0 < (as.map fun a => a.rounds info nr (rulesOf cfg)).sum := by
        obtain ⟨a, ha⟩ := List.exists_mem_of_ne_nil _ hne
        have := le_sum_of_mem (List.mem_map.2 ⟨a, ha, rfl⟩ : a.rounds info nr (rulesOf cfg) ∈ as.map fun a => a.rounds info nr (rulesOf cfg))
        have h2 : 2 ≤ a.rounds info nr (rulesOf cfg) := by
          unfold WorkAlt.rounds
          split
          · omega
          · split <;> omega
        omega
      rcases Nat.eq_zero_or_pos p with rfl | hp
      · rw [Nat.pow_zero]; omega
      · have := sum_pow hp; omega

theorem plus_nullRounds : NullRounds grammar.forestInfo (fun _ => 1) := by
  refine ⟨fun _ _ => rfl, fun s x y h => ?_⟩
  have : grammar.forestInfo.nullingIntermediate = [] := by decide +kernel
  obtain ⟨p, hp, _⟩ := (Option.map_eq_some_iff).1 h
  rw [this] at hp
  cases hp

theorem plus_removed (d : Nat) : grammar.forestInfo.removed d = none := by
  have : grammar.forestInfo.nullingEliminated.all (· == none) = true := by decide +kernel
  unfold ForestInfo.removed
  cases h : grammar.forestInfo.nullingEliminated[d]? with
  | none => rfl
  | some e => simpa using List.all_eq_true.1 this _ (List.mem_of_getElem? h)

/-- C57. The forest of `a plus a … plus a` with `k` operators is of cubic size, but its evaluation takes more than `3 ^ k`
rounds. -/
theorem C57_exponential_simple {E : Env Simple.Bocage Nat} {b : Simple.Bocage} (hg : E.g = grammar) (hleo : E.leo = false)
    (hF : E.F = Simple.forest) (hb : Simple.Bocage.new E.g.forestInfo = pure b) {k : Nat}
    (hk : b.graph.length + 54 * (2 * k + 2) ^ 3 < 2 ^ 32) :
    ∃ r x, (Rec.new E b >>= Rec.session E (plusSteps k)) = pure r ∧ Rec.finishedNode E r.1 = pure (some x) ∧
      r.1.forest.graph.length ≤ b.graph.length + 54 * (2 * k + 2) ^ 3 ∧
      ∀ {α : Type} (ev : Evaluator α), ev.Grows → (∃ res, r.1.forest.evaluate ev x = pure res) ∧
        ∀ m, m ≤ 3 ^ k → r.1.forest.evaluateFuel m ev x = diverge := by
  have hk' : k < 2 ^ 32 := by
    have := Nat.le_self_pow (n := 3) (by decide) (2 * k + 2)
    omega
  have hgood := plus_good (σ := Simple.Bocage) hg hleo hk'
  have hs := (C02_forests cfg.rules.length cfg.numSyms).2.1 _ _ hb
  rw [← hF] at hs
  obtain ⟨r, h1, h2⟩ := C54_cubic (m := fun b : Simple.Bocage => b.graph.length) (show Built cfg 6 wrap E.g from hg ▸ built) hleo
    (by unfold UnaryOrdered; decide) hs (hF ▸ C54_forests.1) hgood.tokens hgood.hints
    (by rw [plusSteps_length]; omega) (plus_terms k)
  obtain ⟨r', x, h3, h4, h5⟩ := C57_rounds_simple hgood (by unfold UnaryOrdered; decide) hF hb plus_once plus_accepts
    (by rw [plusSteps_length]; omega) (hg ▸ plus_nullRounds)
  cases pure_inj_M (h1.symm.trans h3)
  rw [plusSteps_length] at h2 h5
  have hl : r.1.forest.graph.length ≤ b.graph.length + 54 * (2 * k + 2) ^ 3 := by
    refine Nat.le_trans h2 (Nat.le_of_eq ?_)
    rw [Nat.one_mul]; rfl
  refine ⟨r, x, h1, h4, hl, fun ev hE => ?_⟩
  obtain ⟨m, h6, h7⟩ := h5 (by omega)
  obtain ⟨res, h8, h9⟩ := h7 (.inl fun d => hg ▸ plus_removed d) ev hE
  rw [show 2 * k + 2 = 1 + 2 * k + 1 by omega] at h6
  have := plus_work k 1 m (by decide) (by omega) h6
  exact ⟨⟨res, h8⟩, fun n hn => by rw [h9, if_pos (by omega)]⟩

/-- C57, compact bocage. -/
theorem C57_exponential_compact {E : Env Compact.Bocage Nat} {b : Compact.Bocage} (hg : E.g = grammar) (hleo : E.leo = false)
    (hF : E.F = Compact.forest) (hb : Compact.Bocage.new E.g.forestInfo = pure b) {k : Nat}
    (hk : b.graph.length + 486 * (2 * k + 2) ^ 3 < 2 ^ 32) :
    ∃ r x, (Rec.new E b >>= Rec.session E (plusSteps k)) = pure r ∧ Rec.finishedNode E r.1 = pure (some x) ∧
      r.1.forest.graph.length ≤ b.graph.length + 486 * (2 * k + 2) ^ 3 ∧
      ∀ {α : Type} (ev : Evaluator α), ev.Grows → (∃ res, r.1.forest.evaluate ev x = pure res) ∧
        ∀ m, m ≤ 3 ^ k → r.1.forest.evaluateFuel m ev x = diverge := by
  have hk' : k < 2 ^ 32 := by
    have := Nat.le_self_pow (n := 3) (by decide) (2 * k + 2)
    omega
  have hgood := plus_good (σ := Compact.Bocage) hg hleo hk'
  have hs := (C02_forests cfg.rules.length cfg.numSyms).2.2 b
  rw [← hF] at hs
  obtain ⟨r, h1, h2⟩ := C54_cubic (m := fun b : Compact.Bocage => b.graph.length) (show Built cfg 6 wrap E.g from hg ▸ built) hleo
    (by unfold UnaryOrdered; decide) hs (hF ▸ C54_forests.2) hgood.tokens hgood.hints
    (by rw [plusSteps_length]; omega) (plus_terms k)
  obtain ⟨r', x, h3, h4, h5⟩ := C57_rounds_compact hgood (by unfold UnaryOrdered; decide) hF hb plus_once plus_accepts
    (by rw [plusSteps_length]; omega) (hg ▸ plus_nullRounds)
  cases pure_inj_M (h1.symm.trans h3)
  rw [plusSteps_length] at h2 h5
  have hl : r.1.forest.graph.length ≤ b.graph.length + 486 * (2 * k + 2) ^ 3 := by
    refine Nat.le_trans h2 (Nat.le_of_eq ?_)
    rw [← Nat.mul_assoc]; rfl
  refine ⟨r, x, h1, h4, hl, fun ev hE => ?_⟩
  obtain ⟨m, h6, h7⟩ := h5 (by omega)
  obtain ⟨res, h8, h9⟩ := h7 (.inl fun d => hg ▸ plus_removed d) ev hE
  rw [show 2 * k + 2 = 1 + 2 * k + 1 by omega] at h6
  have := plus_work k 1 m (by decide) (by omega) h6
  exact ⟨⟨res, h8⟩, fun n hn => by rw [h9, if_pos (by omega)]⟩

/-! ### Examples -/

theorem countArgs_grows : countArgs.Grows := fun _ rs => by simp [countArgs]

example : ∃ b, Simple.Bocage.new grammar.forestInfo = pure b :=
  (C36_simple grammar.forestInfo (by decide +kernel) (by decide +kernel)).imp fun _ h => h.1

-- 200 operators: the forest has at most 54 * 402 ^ 3 new nodes, and the evaluation takes more than 3 ^ 200 rounds
example {b : Simple.Bocage} (hb : Simple.Bocage.new grammar.forestInfo = pure b) :
    ∃ r x, (Rec.new simpleEnv b >>= Rec.session simpleEnv (plusSteps 200)) = pure r ∧
      Rec.finishedNode simpleEnv r.1 = pure (some x) ∧ r.1.forest.graph.length < 2 ^ 32 ∧
      ∀ m, m ≤ 3 ^ 200 → r.1.forest.evaluateFuel m countArgs x = diverge := by
  have hl : b.graph.length + 54 * (2 * 200 + 2) ^ 3 < 2 ^ 32 := by rw [C54_new.1 b hb]; decide +kernel
  obtain ⟨r, x, h1, h2, h3, h4⟩ := C57_exponential_simple (E := simpleEnv) rfl rfl rfl hb hl
  exact ⟨r, x, h1, h2, by omega, (h4 countArgs countArgs_grows).2⟩

example {b : Compact.Bocage} (hb : Compact.Bocage.new grammar.forestInfo = pure b) :
    ∃ r x, (Rec.new compactEnv b >>= Rec.session compactEnv (plusSteps 100)) = pure r ∧
      Rec.finishedNode compactEnv r.1 = pure (some x) ∧ r.1.forest.graph.length < 2 ^ 32 ∧
      ∀ m, m ≤ 3 ^ 100 → r.1.forest.evaluateFuel m countArgs x = diverge := by
  have hl : b.graph.length + 486 * (2 * 100 + 2) ^ 3 < 2 ^ 32 := by rw [C54_new.2 b hb]; decide +kernel
  obtain ⟨r, x, h1, h2, h3, h4⟩ := C57_exponential_compact (E := compactEnv) rfl rfl rfl hb hl
  exact ⟨r, x, h1, h2, by omega, (h4 countArgs countArgs_grows).2⟩

-- three operators, computed: 207 and 240 rounds
example : (do
    let (_, r, x, _) ← pipe simpleEnv (Simple.Bocage.new grammar.forestInfo) (fun b => b.evaluateFuel 208 countArgs) ambSteps
    pure (r.1.forest.evaluateFuel 207 countArgs x).isNone : M _) = pure true := by decide +kernel
example : (do
    let (_, r, x, _) ← pipe compactEnv (Compact.Bocage.new grammar.forestInfo) (fun b => b.evaluateFuel 241 countArgs) ambSteps
    pure (r.1.forest.evaluateFuel 240 countArgs x).isNone : M _) = pure true := by decide +kernel

end

/-! One tree, and a removed symbol: `foo` with `start ::= a b c d foo`, where `a b c d` is empty. -/

section
open Gearley.Example Gearley.Example.Nulls Gearley.Example.Conformance

/-- Seven rounds for the empty `a b`, thirteen for `a b c`, nineteen for `a b c d`. -/
def foo_nr (s : Nat) : Nat := if s = 9 then 7 else if s = 10 then 13 else if s = 11 then 19 else 1

theorem foo_nullRounds : NullRounds nulls.forestInfo foo_nr := by
  have hni : nulls.forestInfo.nullingIntermediate = [(9, 5, 6), (10, 9, 7), (11, 10, 8)] := by decide +kernel
  have hrule : ∀ s, nulls.forestInfo.nullingRule s =
      if s = 11 then some (10, 8) else if s = 10 then some (9, 7) else if s = 9 then some (5, 6) else none := by
    intro s
    unfold ForestInfo.nullingRule
    rw [hni]
    simp only [List.reverse_cons, List.reverse_nil, List.nil_append, List.cons_append, List.find?_cons, List.find?_nil]
    by_cases h1 : s = 11
    · subst h1; rfl
    · by_cases h2 : s = 10
      · subst h2; rfl
      · by_cases h3 : s = 9
        · subst h3; rfl
        · simp [h1, h2, h3, Ne.symm h1, Ne.symm h2, Ne.symm h3]
  refine ⟨fun s h => ?_, fun s x y h => ?_⟩
  · rw [hrule] at h
    unfold foo_nr
    split at h
    · cases h
    · split at h
      · cases h
      · split at h
        · cases h
        · simp_all
  · rw [hrule] at h
    split at h
    · cases h; subst s; rfl
    · split at h
      · cases h; subst s; rfl
      · split at h
        · cases h; subst s; rfl
        · cases h

theorem foo_once : WrappedOnce (rulesOf nullsCfg) Nulls.wrap 12 := by
  have : ∀ d : Nat, (rulesOf nullsCfg)[d]? = some (Rule.mk 12 Nulls.wrap.sof (some Nulls.wrap.innerRoot)) → d = 2 := by
    intro d h
    match d with
    | 0 | 1 => revert h; decide
    | 2 => rfl
    | d + 3 => cases h
  intro d d' h h'
  rw [this d h, this d' h']

-- one round for the token, two for the rule, nineteen for the empty derivation, three for the pair
example : treeRounds 0 foo_nr nulls.forestInfo (.node 1 (.leaf 4 0)) = 25 := by decide +kernel

example {b : Simple.Bocage} (hb : Simple.Bocage.new nulls.forestInfo = pure b) :
    ∃ r x, (Rec.new (simple nulls) b >>= Rec.session (simple nulls) foo) = pure r ∧
      Rec.finishedNode (simple nulls) r.1 = pure (some x) ∧ (r.1.forest.graph.length + 25 < 2 ^ 32 →
        ∃ res, r.1.forest.evaluate nullsEval x = pure res ∧
          ∀ m, r.1.forest.evaluateFuel m nullsEval x = if m ≤ 25 then diverge else pure res) := by
  obtain ⟨r, x, h1, h2, h3⟩ := C57_rounds_simple (E := simple nulls) (foo_good rfl rfl) (by unfold UnaryOrdered; decide) rfl hb
    foo_once foo_accepts (by decide) foo_nullRounds
  refine ⟨r, x, h1, h2, fun hl => ?_⟩
  obtain ⟨k, h4, h5⟩ := h3 (by omega)
  have hk : k = 25 := (C57_unambiguous h4 foo_unique).trans (by decide +kernel)
  subst hk
  exact h5 (.inr hl) nullsEval fun _ rs => by simp [nullsEval]

example {b : Simple.Bocage} (hb : Simple.Bocage.new nulls.forestInfo = pure b) :=
  C57_rounds_one_simple (E := simple nulls) (foo_good rfl rfl) rfl hb foo_once foo_accepts (by decide) foo_nullRounds foo_unique
example {b : Compact.Bocage} (hb : Compact.Bocage.new nulls.forestInfo = pure b) :=
  C57_rounds_one_compact (E := compact nulls) (foo_good rfl rfl) rfl hb foo_once foo_accepts (by decide) foo_nullRounds foo_unique
example {b : Simple.Bocage} (hb : Simple.Bocage.new nulls.forestInfo = pure b) :=
  C57_linear_simple (E := simple nulls) (M := 19) (foo_good rfl rfl) rfl hb
    foo_once foo_accepts (by decide) foo_nullRounds (fun _ s _ _ => by unfold foo_nr; split <;> [omega; (split <;> [omega; (split <;> omega)])])
    foo_unique
example {b : Compact.Bocage} (hb : Compact.Bocage.new nulls.forestInfo = pure b) :=
  C57_linear_compact (E := compact nulls) (M := 19) (foo_good rfl rfl) rfl hb
    foo_once foo_accepts (by decide) foo_nullRounds (fun _ s _ _ => by unfold foo_nr; split <;> [omega; (split <;> [omega; (split <;> omega)])])
    foo_unique

-- computed: 25 rounds, and 26 for the compact bocage, whose products have an end mark
example : (do
    let (_, r, x, y) ← pipe (simple nulls) (Simple.Bocage.new nulls.forestInfo) (fun b => b.evaluateFuel 26 nullsEval) foo
    pure ((r.1.forest.evaluateFuel 25 nullsEval x).isNone, y.2) : M _) = pure (true, [313]) := by decide +kernel
example : (do
    let (_, r, x, y) ← pipe (compact nulls) (Compact.Bocage.new nulls.forestInfo) (fun b => b.evaluateFuel 27 nullsEval) foo
    pure ((r.1.forest.evaluateFuel 26 nullsEval x).isNone, y.2) : M _) = pure (true, [313]) := by decide +kernel

end

end Gearley.Props
