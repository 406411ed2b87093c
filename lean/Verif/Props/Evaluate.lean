import Verif.Proofs.Finished
import Verif.Examples.Nullable
import Verif.Examples.Empty

/-!
# C20, C21: evaluation

`treeVals` (Spec/Evaluate.lean) is the bottom-up value of a tree for any evaluator. `GoodParse` (Proofs/Finished.lean)
collects the conditions on grammar, tables and input.
-/

namespace Gearley.Props
open Gearley.Spec
variable {c : Cfg} {n : Nat} {w : WrappedRoot} {α : Type} {nullable : Prop} {steps : List Step} {g0 : Nat}

/-! ### C20: values of unambiguous parses -/

/-- C20, simple bocage. The whole input has a unique derivation tree, `sof` followed by a tree `t` of the user's root. Then
the session succeeds, there is a finished node, and evaluating it returns the bottom-up values of `t`, for every evaluator
whose `nulling` appends to the results; evaluating it again returns the same. The bocage was made by `Bocage::new`; graph and
results stay below `2 ^ 32`. Partial: for ambiguous parses the claimed result (one value for each tree) is wrong, see
`C20_ambiguous_simple`. -/
theorem C20_simple_partial {E : Env Simple.Bocage Nat} {b : Simple.Bocage} (h : GoodParse E c n w nullable steps g0)
    (hF : E.F = Simple.forest) (hb : Simple.Bocage.new E.g.forestInfo = pure b) {d v : Nat} {t : PTree}
    (ht : ∀ t', TreeOf (rulesOf c) (inputOf steps) t' g0 0 steps.length ↔ t' = .node d (.pair (.leaf w.sof v) t)) :
    ∃ r x, (Rec.new E b >>= Rec.session E steps) = pure r ∧ r.2 = true ∧ Rec.finishedNode E r.1 = pure (some x) ∧
      ∀ (ev : Evaluator α) nv nc, NullEval E.g.forestInfo ev nv nc →
        r.1.forest.graph.length + treeCost E.g.forestInfo nc t < 2 ^ 32 →
        ∃ b', r.1.forest.evaluate ev x = pure (b', treeVals E.g.forestInfo ev nv t) ∧
          (r.1.forest.graph.length + 2 * treeCost E.g.forestInfo nc t < 2 ^ 32 →
            ∃ b'', b'.evaluate ev x = pure (b'', treeVals E.g.forestInfo ev nv t)) := by
  have htree := (ht _).2 rfl
  obtain ⟨r, x, h1, h2, h3, hi, h4⟩ := finished_simple h hF hb (h.accepts htree)
  refine ⟨r, x, h1, h2, h3, fun ev nv nc hN hl => ?_⟩
  obtain ⟨⟨ts, hd, hn, hm⟩, hT⟩ := h4 (by omega)
  have hts : ts = [.node d (.pair (.leaf w.sof v) t)] :=
    eq_single hn ((hm _).2 htree) fun y hy => (ht y).1 ((hm y).1 hy)
  subst hts
  have hT := hT ev nv nc hN
  rw [← (built_forestInfo h.prepared).2.2.1, ← hi] at hd
  rw [← hi] at hT hl ⊢
  exact Simple.evaluate_tree hT hd (TreeOf.covered htree).2.2 hl

/-- C20, compact bocage. A restored symbol takes up to nine bytes. Partial: see `C20_ambiguous_compact`. -/
theorem C20_compact_partial {E : Env Compact.Bocage Nat} {b : Compact.Bocage} (h : GoodParse E c n w nullable steps g0)
    (hF : E.F = Compact.forest) (hb : Compact.Bocage.new E.g.forestInfo = pure b) {d v : Nat} {t : PTree}
    (ht : ∀ t', TreeOf (rulesOf c) (inputOf steps) t' g0 0 steps.length ↔ t' = .node d (.pair (.leaf w.sof v) t)) :
    ∃ r x, (Rec.new E b >>= Rec.session E steps) = pure r ∧ r.2 = true ∧ Rec.finishedNode E r.1 = pure (some x) ∧
      ∀ (ev : Evaluator α) nv nc, NullEval E.g.forestInfo ev nv nc →
        r.1.forest.graph.length + 9 * treeCost E.g.forestInfo nc t < 2 ^ 32 →
        ∃ b', r.1.forest.evaluate ev x = pure (b', treeVals E.g.forestInfo ev nv t) ∧ r.1.forest.graph <+: b'.graph ∧
          (r.1.forest.graph.length + 18 * treeCost E.g.forestInfo nc t < 2 ^ 32 →
            ∃ b'', b'.evaluate ev x = pure (b'', treeVals E.g.forestInfo ev nv t)) := by
  have htree := (ht _).2 rfl
  obtain ⟨r, x, h1, h2, h3, hi, h4⟩ := finished_compact h hF hb (h.accepts htree)
  refine ⟨r, x, h1, h2, h3, fun ev nv nc hN hl => ?_⟩
  obtain ⟨⟨ts, hd, hn, hm⟩, hT⟩ := h4 (by omega)
  have hts : ts = [.node d (.pair (.leaf w.sof v) t)] :=
    eq_single hn ((hm _).2 htree) fun y hy => (ht y).1 ((hm y).1 hy)
  subst hts
  have hT := hT ev nv nc hN
  rw [← (built_forestInfo h.prepared).2.2.1, ← hi] at hd
  rw [← hi] at hT hl ⊢
  have hdk := (TreeOf.covered htree).1
  have := h.rules32
  simp only [rulesOf, List.length_map] at hdk
  exact Compact.evaluate_tree hT hd (by unfold nullAction; omega) (TreeOf.covered htree).2.2 hl

/-- C20. The values are one value, if the user's root is a token or all of its rules have an external number: rules made
from the user's rules have the number of the user's rule. -/
theorem C20_one_value (info : ForestInfo) (ev : Evaluator α) (nv : Nat → List α) {R : Rules} {inp : Input} {t : PTree}
    {A i j : Nat} (ht : TreeOf R inp t A i j)
    (hA : ∀ d r, R[d]? = some r → r.lhs = A → ∃ id, info.origin d = some id) :
    ∃ x, treeVals info ev nv t = [x] := by
  cases ht with
  | leaf _ => exact ⟨_, rfl⟩
  | @unary d A B f i j hr hf =>
    obtain ⟨id, hid⟩ := hA d _ hr rfl
    cases f <;> simp only [treeVals, applyRule, hid] <;> exact ⟨_, rfl⟩
  | binary hr _ _ =>
    obtain ⟨id, hid⟩ := hA _ _ hr rfl
    simp only [treeVals, applyRule, hid]
    exact ⟨_, rfl⟩

/-- C20. Generated symbols are flattened away: the values of a subtree of a rule without external number are the values
of its children in order. -/
theorem C20_flattened (info : ForestInfo) (ev : Evaluator α) (nv : Nat → List α) {d : Nat} (hd : info.origin d = none)
    (a b : PTree) : treeVals info ev nv (.node d (.pair a b)) = treeVals info ev nv a ++ treeVals info ev nv b := by
  simp only [treeVals, applyRule, hd]

/-- C20. Evaluation of the finished node of any parse, ambiguous or not, returns; simple bocage. -/
theorem C20_returns_simple {E : Env Simple.Bocage Nat} {b : Simple.Bocage} (h : GoodParse E c n w nullable steps g0)
    (hF : E.F = Simple.forest) (hb : Simple.Bocage.new E.g.forestInfo = pure b) (hacc : Accepts (rulesOf c) g0 steps) :
    ∃ r x, (Rec.new E b >>= Rec.session E steps) = pure r ∧ Rec.finishedNode E r.1 = pure (some x) ∧
      (r.1.forest.graph.length < 2 ^ 32 → ∃ ts : List PTree,
        (∀ t, t ∈ ts ↔ TreeOf (rulesOf c) (inputOf steps) t g0 0 steps.length) ∧
        ∀ (ev : Evaluator α) nv nc, NullEval E.g.forestInfo ev nv nc →
          r.1.forest.graph.length + (ts.map (treeCost E.g.forestInfo nc)).sum < 2 ^ 32 →
          ∃ b' u, r.1.forest.evaluate ev x = pure (b', u)) := by
  obtain ⟨r, x, h1, h2, h3, hi, h4⟩ := finished_simple h hF hb hacc
  refine ⟨r, x, h1, h3, fun hl => ?_⟩
  obtain ⟨⟨ts, hd, hn, hm⟩, hT⟩ := h4 hl
  refine ⟨ts, hm, fun ev nv nc hN hl => ?_⟩
  have hT := hT ev nv nc hN
  have hs := (built_forestInfo h.prepared).2.2.1
  rw [← hi] at hT hl hs
  refine Simple.evaluate_returns hT hd (fun t ht => TreeOf.covered ((hm t).1 ht)) (fun t ht => ?_) hl
  rcases h.tree_form ((hm t).1 ht) with ⟨d, v, u, rfl, _⟩ | ⟨d, v, rfl, _⟩ <;> exact hs.symm

/-- C20. Evaluation of the finished node of any non-empty parse returns; compact bocage. -/
theorem C20_returns_compact {E : Env Compact.Bocage Nat} {b : Compact.Bocage} (h : GoodParse E c n w nullable steps g0)
    (hF : E.F = Compact.forest) (hb : Compact.Bocage.new E.g.forestInfo = pure b) (hacc : Accepts (rulesOf c) g0 steps)
    (hlen : 1 < steps.length) :
    ∃ r x, (Rec.new E b >>= Rec.session E steps) = pure r ∧ Rec.finishedNode E r.1 = pure (some x) ∧
      (r.1.forest.graph.length < 2 ^ 32 → ∃ ts : List PTree,
        (∀ t, t ∈ ts ↔ TreeOf (rulesOf c) (inputOf steps) t g0 0 steps.length) ∧
        ∀ (ev : Evaluator α) nv nc, NullEval E.g.forestInfo ev nv nc →
          r.1.forest.graph.length + 9 * (ts.map (treeCost E.g.forestInfo nc)).sum < 2 ^ 32 →
          ∃ b' u, r.1.forest.evaluate ev x = pure (b', u)) := by
  obtain ⟨r, x, h1, h2, h3, hi, h4⟩ := finished_compact h hF hb hacc
  refine ⟨r, x, h1, h3, fun hl => ?_⟩
  obtain ⟨⟨ts, hd, hn, hm⟩, hT⟩ := h4 hl
  refine ⟨ts, hm, fun ev nv nc hN hl => ?_⟩
  have hT := hT ev nv nc hN
  have hs := (built_forestInfo h.prepared).2.2.1
  rw [← hi] at hT hl hs
  refine Compact.evaluate_returns hT hd (fun t ht => TreeOf.covered ((hm t).1 ht)) (fun t ht => ?_)
    (by simpa [rulesOf] using h.rules32) hl
  rcases h.tree_form ((hm t).1 ht) with ⟨d, v, u, rfl, _⟩ | ⟨d, v, _, h1, _⟩
  · rw [hs]; exact ⟨d, v, u, rfl⟩
  · omega

/-! ### The empty input -/

/-- The empty input (only `sof`): the simple bocage asks the evaluator for the empty value of the user's root. -/
theorem C20_empty_simple {E : Env Simple.Bocage Nat} {b : Simple.Bocage} (h : GoodParse E c n w nullable steps g0)
    (hF : E.F = Simple.forest) (hb : Simple.Bocage.new E.g.forestInfo = pure b) {d v : Nat}
    (ht : ∀ t', TreeOf (rulesOf c) (inputOf steps) t' g0 0 steps.length ↔ t' = .node d (.leaf w.sof v)) :
    ∃ r x, (Rec.new E b >>= Rec.session E steps) = pure r ∧ Rec.finishedNode E r.1 = pure (some x) ∧
      ∀ ev : Evaluator α, r.1.forest.graph.length < 2 ^ 32 →
        r.1.forest.evaluate ev x = pure (r.1.forest, ev.nulling w.innerRoot []) := by
  have htree := (ht _).2 rfl
  obtain ⟨r, x, h1, h2, h3, hi, h4⟩ := finished_simple h hF hb (h.accepts htree)
  refine ⟨r, x, h1, h3, fun ev hl => ?_⟩
  obtain ⟨⟨ts, hd, hn, hm⟩, _⟩ := h4 hl
  have hts : ts = [.node d (.leaf w.sof v)] := eq_single hn ((hm _).2 htree) fun y hy => (ht y).1 ((hm y).1 hy)
  subst hts
  rw [Simple.evaluate_empty hd, hi, (built_forestInfo h.prepared).2.2.2]

/-- The empty input: the compact bocage returns no values at all. -/
theorem C20_empty_compact {E : Env Compact.Bocage Nat} {b : Compact.Bocage} (h : GoodParse E c n w nullable steps g0)
    (hF : E.F = Compact.forest) (hb : Compact.Bocage.new E.g.forestInfo = pure b) {d v : Nat}
    (ht : ∀ t', TreeOf (rulesOf c) (inputOf steps) t' g0 0 steps.length ↔ t' = .node d (.leaf w.sof v)) :
    ∃ r x, (Rec.new E b >>= Rec.session E steps) = pure r ∧ Rec.finishedNode E r.1 = pure (some x) ∧
      ∀ ev : Evaluator α, r.1.forest.graph.length < 2 ^ 32 → r.1.forest.evaluate ev x = pure (r.1.forest, []) := by
  have htree := (ht _).2 rfl
  obtain ⟨r, x, h1, h2, h3, hi, h4⟩ := finished_compact h hF hb (h.accepts htree)
  refine ⟨r, x, h1, h3, fun ev hl => ?_⟩
  obtain ⟨⟨ts, hd, hn, hm⟩, _⟩ := h4 hl
  have hts : ts = [.node d (.leaf w.sof v)] := eq_single hn ((hm _).2 htree) fun y hy => (ht y).1 ((hm y).1 hy)
  subst hts
  have hdk := (TreeOf.covered htree).1
  have := h.rules32
  simp only [rulesOf, List.length_map] at hdk
  obtain ⟨f, h5, h6⟩ := Compact.den_node hd (by unfold nullAction; omega)
  exact Compact.evaluate_empty h5 (Compact.den_leaf h6)

/-! ### C21: removed nullable symbols -/

theorem Simple.den_lt {G : List Simple.Node} {h : Nat} {ts : List PTree} (hd : Simple.Den G h ts) : h < G.length := by
  cases hd with
  | leaf h | nulling h | product h _ | rule h _ _ | sum h _ _ _ _ => exact (List.getElem?_eq_some_iff.1 h).1

/-- C21, the change of the graph, simple bocage. A rule `d` applied to `f`, from which the symbol `s` was removed on the
right (`side`) or left: the result is the rule applied to a pair of the trees of `f` and the empty trees of `s`, in this
order if `s` was on the right. The graph only grows. -/
theorem C21_restore_simple {b : Simple.Bocage} {d f s : Nat} {side : Bool} {ts ns : List PTree}
    (hf : Simple.Den b.graph f ts) (hs : Simple.Den b.graph s ns) (hr : ∀ t ∈ ts, ∀ x y, t ≠ .pair x y)
    (hd : d ≠ nullAction) (he : b.info.nullingEliminated[d]? = some (some (s, side))) (hl : b.graph.length < 2 ^ 32 - 1) :
    ∃ b' f', b.postprocess (.product d f) = pure (b', .product d f') ∧ b.graph <+: b'.graph ∧ b'.info = b.info ∧
      Simple.Den b'.graph f' (if side then pairs ts ns else pairs ns ts) := by
  obtain ⟨t, ht⟩ := List.exists_mem_of_ne_nil _ hf.ne_nil
  have hlf := Simple.den_lt hf
  have hls := Simple.den_lt hs
  refine ⟨(b.product (if side then f else s) (if side then s else f)).1, b.graph.length, ?_, ⟨_, rfl⟩, rfl, ?_⟩
  · unfold Simple.Bocage.postprocess
    simp only
    rw [indexM_eq (List.getElem?_eq_getElem hlf), pure_bind]
    split
    · next l r hh =>
      cases hf with
      | leaf h | nulling h | product h _ | sum h _ _ _ _ =>
        rw [List.getElem?_eq_getElem hlf, hh] at h; cases h
      | rule _ h1 h2 =>
        obtain ⟨x, _, y, _, e⟩ := mem_pairs.1 ht
        exact absurd e (hr t ht x y)
    · rw [if_neg hd, indexM_eq he, pure_bind]
      unfold Simple.Bocage.product
      simp only
      rw [u32_of_lt' (by omega)]
      have : u32Pred (b.graph.length + 1) = b.graph.length := by
        rw [u32Pred_eq (by omega) (by omega)]; omega
      cases side <;> simp [this]
  · have hp : b.graph <+: b.graph ++ [Simple.Node.rule (if side then f else s) (if side then s else f)] := ⟨_, rfl⟩
    have hh : (b.graph ++ [Simple.Node.rule (if side then f else s) (if side then s else f)])[b.graph.length]? =
      some (.rule (if side then f else s) (if side then s else f)) := by simp
    cases side
    · exact .rule hh (hs.mono hp) (hf.mono hp)
    · exact .rule hh (hf.mono hp) (hs.mono hp)

/-- C21, the change of the graph, compact bocage. The handle of the empty trees of `s` is `s * 9`. -/
theorem C21_restore_compact {b : Compact.Bocage} {d f s : Nat} {side : Bool} {ts ns : List PTree} {node : Compact.Node}
    (hn : node = .product d f ∨ node = .summand d f)
    (hf : Compact.Den b.graph f ts) (hs : Compact.Den b.graph (s * 9) ns) (hr : ∀ t ∈ ts, ∀ x y, t ≠ .pair x y)
    (hd : d ≠ nullAction) (he : b.info.nullingEliminated[d]? = some (some (s, side))) (hl : b.graph.length < 2 ^ 32) :
    ∃ b' f', b.postprocess node = pure (b', .product d f') ∧ b.graph <+: b'.graph ∧ b'.info = b.info ∧
      Compact.Den b'.graph f' (if side then pairs ts ns else pairs ns ts) := by
  obtain ⟨t, ht⟩ := List.exists_mem_of_ne_nil _ (hf.ne_nil.resolve_right (by simp))
  obtain ⟨y, hy⟩ := hf.get
  obtain ⟨z, hz⟩ := hs.get
  have hlf := Compact.get_lt hy
  have hls := Compact.get_lt hz
  have hnr : ∀ l r, y ≠ .rule l r := by
    rintro l r rfl
    cases hf with
    | leaf h | nulling h | product h _ | single h _ | beginSum h _ _ _ => cases Compact.get_inj hy h
    | rule _ h1 h2 =>
      obtain ⟨x, _, y, _, e⟩ := mem_pairs.1 ht
      exact absurd e (hr t ht x y)
  have hm : Compact.mul9 (u32 s) = s * 9 := by
    unfold Compact.mul9
    rw [u32_of_lt' (show s < 2 ^ 32 by omega), u32_of_lt' (by omega)]
  refine ⟨(b.product (if side then f else s * 9) (if side then s * 9 else f)).1, b.graph.length, ?_, ⟨_, rfl⟩, rfl, ?_⟩
  · have key : (do
        match ← Compact.get b.graph f with
        | .rule .. => pure (b, node)
        | _ =>
          if d = nullAction then pure (b, node)
          else do
            match ← indexM b.info.nullingEliminated d with
            | some (sym, dir) =>
              let lr := if dir then (f, Compact.mul9 (u32 sym)) else (Compact.mul9 (u32 sym), f)
              let (b, rule) := b.product lr.1 lr.2
              pure (b, .product d rule)
            | none => pure (b, node) : M (Compact.Bocage × Compact.Node)) =
          pure ((b.product (if side then f else s * 9) (if side then s * 9 else f)).1, .product d b.graph.length) := by
      rw [hy, pure_bind]
      split
      · exact absurd rfl (hnr _ _)
      · rw [if_neg hd, indexM_eq he, pure_bind]
        simp only [hm]
        cases side <;> simp [Compact.Bocage.product, Compact.len, u32_of_lt' hl]
    rcases hn with rfl | rfl <;> exact key
  · have hp : b.graph <+: (b.product (if side then f else s * 9) (if side then s * 9 else f)).1.graph := ⟨_, rfl⟩
    have hh : Compact.get (b.product (if side then f else s * 9) (if side then s * 9 else f)).1.graph b.graph.length =
        pure (.rule (if side then f else s * 9) (if side then s * 9 else f)) := by
      have := Compact.get_encode b.graph (n := .rule (if side then f else s * 9) (if side then s * 9 else f))
        (by cases side <;> constructor <;> simp <;> omega) []
      rwa [List.append_nil] at this
    cases side
    · exact .rule hh (hs.mono hp) (hf.mono hp)
    · exact .rule hh (hf.mono hp) (hs.mono hp)

theorem treeVals_removed (info : ForestInfo) (ev : Evaluator α) (nv : Nat → List α) {d s id : Nat} {side : Bool} {f : PTree}
    (hf : ∀ x y, f ≠ .pair x y) (hr : info.removed d = some (s, side)) (ho : info.origin d = some id) :
    treeVals info ev nv (.node d f) =
      [ev.product id (if side then treeVals info ev nv f ++ nv s else nv s ++ treeVals info ev nv f)] := by
  cases f with
  | pair x y => exact absurd rfl (hf x y)
  | leaf | node | nulling =>
    simp only [treeVals, applyRule, hr, ho]
    cases side <;> rfl

/-- C21, simple bocage. The user's root is derived with rule `id` from which the symbol `s` was removed. Then evaluation
calls rule `id` with the values of the remaining symbol and the values of the empty derivation of `s`, which come last if
`s` was removed on the right (`side`) and first otherwise. (For rules deeper in the tree see `C20_simple_partial`.) -/
theorem C21_simple {E : Env Simple.Bocage Nat} {b : Simple.Bocage} (h : GoodParse E c n w nullable steps g0)
    (hF : E.F = Simple.forest) (hb : Simple.Bocage.new E.g.forestInfo = pure b) {d0 d v s id : Nat} {side : Bool} {f : PTree}
    (ht : ∀ t', TreeOf (rulesOf c) (inputOf steps) t' g0 0 steps.length ↔
      t' = .node d0 (.pair (.leaf w.sof v) (.node d f))) (hf : ∀ x y, f ≠ .pair x y)
    (hr : (c.rules[d]?).map (·.nullable) = some (some (s, side))) (ho : (c.rules[d]?).map (·.origin) = some (some id)) :
    ∃ r x, (Rec.new E b >>= Rec.session E steps) = pure r ∧ r.2 = true ∧ Rec.finishedNode E r.1 = pure (some x) ∧
      ∀ (ev : Evaluator α) nv nc, NullEval E.g.forestInfo ev nv nc →
        r.1.forest.graph.length + treeCost E.g.forestInfo nc (.node d f) < 2 ^ 32 →
        ∃ b', r.1.forest.evaluate ev x = pure (b', [ev.product id (if side then treeVals E.g.forestInfo ev nv f ++ nv s
          else nv s ++ treeVals E.g.forestInfo ev nv f)]) := by
  obtain ⟨he1, he2, _⟩ := built_forestInfo h.prepared
  obtain ⟨r, x, h1, h2, h3, h4⟩ := C20_simple_partial (α := α) h hF hb ht
  refine ⟨r, x, h1, h2, h3, fun ev nv nc hN hl => ?_⟩
  obtain ⟨b', h5, _⟩ := h4 ev nv nc hN hl
  rw [treeVals_removed E.g.forestInfo ev nv hf (by unfold ForestInfo.removed; rw [he2, List.getElem?_map, hr]; rfl)
    (by unfold ForestInfo.origin; rw [he1, List.getElem?_map, ho]; rfl)] at h5
  exact ⟨b', h5⟩

/-- C21, compact bocage. -/
theorem C21_compact {E : Env Compact.Bocage Nat} {b : Compact.Bocage} (h : GoodParse E c n w nullable steps g0)
    (hF : E.F = Compact.forest) (hb : Compact.Bocage.new E.g.forestInfo = pure b) {d0 d v s id : Nat} {side : Bool} {f : PTree}
    (ht : ∀ t', TreeOf (rulesOf c) (inputOf steps) t' g0 0 steps.length ↔
      t' = .node d0 (.pair (.leaf w.sof v) (.node d f))) (hf : ∀ x y, f ≠ .pair x y)
    (hr : (c.rules[d]?).map (·.nullable) = some (some (s, side))) (ho : (c.rules[d]?).map (·.origin) = some (some id)) :
    ∃ r x, (Rec.new E b >>= Rec.session E steps) = pure r ∧ r.2 = true ∧ Rec.finishedNode E r.1 = pure (some x) ∧
      ∀ (ev : Evaluator α) nv nc, NullEval E.g.forestInfo ev nv nc →
        r.1.forest.graph.length + 9 * treeCost E.g.forestInfo nc (.node d f) < 2 ^ 32 →
        ∃ b', r.1.forest.evaluate ev x = pure (b', [ev.product id (if side then treeVals E.g.forestInfo ev nv f ++ nv s
          else nv s ++ treeVals E.g.forestInfo ev nv f)]) := by
  obtain ⟨he1, he2, _⟩ := built_forestInfo h.prepared
  obtain ⟨r, x, h1, h2, h3, h4⟩ := C20_compact_partial (α := α) h hF hb ht
  refine ⟨r, x, h1, h2, h3, fun ev nv nc hN hl => ?_⟩
  obtain ⟨b', h5, _⟩ := h4 ev nv nc hN hl
  rw [treeVals_removed E.g.forestInfo ev nv hf (by unfold ForestInfo.removed; rw [he2, List.getElem?_map, hr]; rfl)
    (by unfold ForestInfo.origin; rw [he1, List.getElem?_map, ho]; rfl)] at h5
  exact ⟨b', h5⟩

/-! ### Concrete parses -/

section
open Gearley.Example

/-- A parse followed by an evaluation, with fuel. -/
def pipe {σ β : Type} (E : Env σ Nat) (mk : M σ) (evalF : σ → Nat → M (σ × β)) (steps : List Step) :
    M (σ × (Rec σ Nat × Bool) × Nat × σ × β) := do
  let b ← mk
  let s ← Rec.new E b
  let r ← Rec.sessionWith E (Rec.completeAllFuel E 200) steps s
  let x ← Rec.finishedNode E r.1
  let x ← unwrapM x
  let y ← evalF r.1.forest x
  pure (b, r, x, y)

theorem pipe_spec {σ β : Type} {E : Env σ Nat} {mk : M σ} {evalF : σ → Nat → M (σ × β)} {steps : List Step} {b : σ}
    {r : Rec σ Nat × Bool} {x : Nat} {y : σ × β} (h : pipe E mk evalF steps = pure (b, r, x, y)) :
    mk = pure b ∧ (Rec.new E b >>= Rec.session E steps) = pure r ∧ Rec.finishedNode E r.1 = pure (some x) ∧
      evalF r.1.forest x = pure y := by
  unfold pipe at h
  obtain ⟨b1, h1, h⟩ := bind_eq_pure h
  obtain ⟨s1, h2, h⟩ := bind_eq_pure h
  obtain ⟨r1, h3, h⟩ := bind_eq_pure h
  obtain ⟨x1, h4, h⟩ := bind_eq_pure h
  obtain ⟨x2, h5, h⟩ := bind_eq_pure h
  obtain ⟨y1, h6, h⟩ := bind_eq_pure h
  cases pure_inj_M h
  cases x1 with
  | none => exact absurd h5 panicM_ne_pure
  | some x1 =>
    have := pure_inj_M (show (pure x1 : M Nat) = pure x from h5)
    subst this
    refine ⟨h1, ?_, h4, h6⟩
    rw [h2, pure_bind]
    exact Rec.session_below _ _ _ _ h3

/-- An evaluator that counts the arguments of every rule. -/
def countArgs : Evaluator Nat := ⟨fun _ _ => 0, fun _ args => args.length, fun _ rs => rs ++ [0], 0⟩

/-- `a plus a plus a plus a` -/
def ambSteps : List Step :=
  [(.keep, [(1, 0)]), (.keep, [(5, 1)]), (.keep, [(2, 2)]), (.keep, [(5, 3)]), (.keep, [(2, 4)]), (.keep, [(5, 5)]),
    (.keep, [(2, 6)]), (.keep, [(5, 7)])]

def ambSimple := pipe simpleEnv (Simple.Bocage.new grammar.forestInfo) (fun b => b.evaluateFuel 300 countArgs) ambSteps
def ambCompact := pipe compactEnv (Compact.Bocage.new grammar.forestInfo) (fun b => b.evaluateFuel 300 countArgs) ambSteps

theorem ambSimple_eq : (do
    let (_, r, x, y) ← ambSimple
    pure ((Simple.denote r.1.forest.graph 40 x).map (·.length), y.2) : M _) = pure (some 5, [4, 4, 3]) := by decide +kernel
theorem ambCompact_eq : (do
    let (_, r, x, y) ← ambCompact
    pure ((Compact.denote r.1.forest.graph 40 false x).map (·.length), y.2) : M _) = pure (some 5, [3, 4, 4]) := by
  decide +kernel

/-- C20 fails for ambiguous parses. With the grammar `E ::= E plus E | a` the input `a plus a plus a plus a` has five
trees, but evaluation returns three values, and the rule `E plus E` is called with four arguments: all values of an
ambiguous node are passed to the same call. -/
theorem C20_ambiguous_simple : ∃ b r x ts b', Simple.Bocage.new grammar.forestInfo = pure b ∧
    (Rec.new simpleEnv b >>= Rec.session simpleEnv ambSteps) = pure r ∧ Rec.finishedNode simpleEnv r.1 = pure (some x) ∧
    Simple.Den r.1.forest.graph x ts ∧ ts.length = 5 ∧ r.1.forest.evaluate countArgs x = pure (b', [4, 4, 3]) := by
  obtain ⟨⟨b, r, x, y⟩, h1, h2⟩ := bind_eq_pure ambSimple_eq
  obtain ⟨h3, h4, h5, h6⟩ := pipe_spec h1
  have h2 := pure_inj_M h2
  simp only [Prod.mk.injEq, Option.map_eq_some_iff] at h2
  obtain ⟨⟨ts, h7, h8⟩, h9⟩ := h2
  refine ⟨b, r, x, ts, y.1, h3, h4, h5, Simple.denote_den h7, h8, ?_⟩
  rw [← h9]
  exact Simple.evaluate_below _ _ _ _ _ h6

theorem C20_ambiguous_compact : ∃ b r x ts b', Compact.Bocage.new grammar.forestInfo = pure b ∧
    (Rec.new compactEnv b >>= Rec.session compactEnv ambSteps) = pure r ∧ Rec.finishedNode compactEnv r.1 = pure (some x) ∧
    Compact.Den r.1.forest.graph x ts ∧ ts.length = 5 ∧ r.1.forest.evaluate countArgs x = pure (b', [3, 4, 4]) := by
  obtain ⟨⟨b, r, x, y⟩, h1, h2⟩ := bind_eq_pure ambCompact_eq
  obtain ⟨h3, h4, h5, h6⟩ := pipe_spec h1
  have h2 := pure_inj_M h2
  simp only [Prod.mk.injEq, Option.map_eq_some_iff] at h2
  obtain ⟨⟨ts, h7, h8⟩, h9⟩ := h2
  refine ⟨b, r, x, ts, y.1, h3, h4, h5, Compact.denote_den h7, h8, ?_⟩
  rw [← h9]
  exact Compact.evaluate_below _ _ _ _ _ h6

/-! The hypotheses of C20 and C21 hold for the input `a` of the grammar `S ::= a X`, `X ::= x | ε`. -/

def nullSimple : Env Simple.Bocage Nat := { g := Nullable.grammar, F := Simple.forest, sorter := sorter }
def nullCompact : Env Compact.Bocage Nat := { g := Nullable.grammar, F := Compact.forest, sorter := sorter }
def oneA : List Step := [(.keep, [(1, 0)]), (.keep, [(2, 7)])]

theorem oneA_plain {σ : Type} {E : Env σ Nat} (hg : E.g = Nullable.grammar) (hleo : E.leo = false) :
    PlainParse E Nullable.cfg 7 Nullable.wrap False oneA 7 where
  prepared := hg ▸ Nullable.built.toPrepared
  leo := hleo
  rules32 := by decide
  syms32 := by decide
  wrapping := by
    refine ⟨⟨7, by decide⟩, ?_, by unfold Terminal; decide, by unfold Terminal; decide⟩
    rintro g0 h rfl
    revert h
    decide
  tokens := by unfold TokensOK; decide
  hints := by
    intro st hst x hx
    simp only [oneA, List.mem_cons, List.not_mem_nil, or_false] at hst
    rcases hst with rfl | rfl <;> cases hx
  ne := by decide
  len := by decide
  honest := fun _ => by
    intro i st x hst hx
    match i with
    | 0 | 1 => cases hst; cases hx
    | i + 2 => cases hst
  plain := by
    intro i
    match i with
    | 0 | 1 => exact ⟨by decide, by unfold Terminal; decide⟩
    | k + 2 => simp [inputOf, oneA]
  rule := by decide

theorem oneA_good {σ : Type} {E : Env σ Nat} (hg : E.g = Nullable.grammar) (hleo : E.leo = false) :
    GoodParse E Nullable.cfg 7 Nullable.wrap False oneA 7 :=
  (oneA_plain hg hleo).good Nullable.built.acyclic

/-- A computed list of trees is the list of all trees. -/
theorem trees_of {E : Env Simple.Bocage Nat} {b : Simple.Bocage} (h : GoodParse E c n w nullable steps g0)
    (hF : E.F = Simple.forest) (hb : Simple.Bocage.new E.g.forestInfo = pure b) {r : Rec Simple.Bocage Nat × Bool} {x k : Nat}
    {ts : List PTree} (hs : (Rec.new E b >>= Rec.session E steps) = pure r) (hx : Rec.finishedNode E r.1 = pure (some x))
    (hl : r.1.forest.graph.length < 2 ^ 32) (hacc : Accepts (rulesOf c) g0 steps)
    (hd : Simple.denote r.1.forest.graph k x = some ts) (t : PTree) :
    TreeOf (rulesOf c) (inputOf steps) t g0 0 steps.length ↔ t ∈ ts := by
  obtain ⟨r', x', h1, _, h3, _, h4⟩ := finished_simple h hF hb hacc
  rw [hs] at h1
  cases pure_inj_M h1
  rw [hx] at h3
  cases pure_inj_M h3
  obtain ⟨⟨ts', h5, _, h6⟩, _⟩ := h4 hl
  rw [(Simple.denote_den hd).det h5]
  exact (h6 t).symm

def oneASimple := pipe nullSimple (Simple.Bocage.new Nullable.grammar.forestInfo) (fun b => b.evaluateFuel 300 countArgs) oneA

theorem oneASimple_eq : (do
    let (_, r, x, y) ← oneASimple
    pure (Simple.denote r.1.forest.graph 40 x, decide (r.1.forest.graph.length < 2 ^ 32), y.2) : M _) =
      pure (some [.node 4 (.pair (.leaf 1 0) (.node 2 (.leaf 2 7)))], true, [2]) := by decide +kernel

/-- The hypothesis `ht` of C20 and C21. -/
theorem oneA_unique (t : PTree) : TreeOf (rulesOf Nullable.cfg) (inputOf oneA) t 7 0 oneA.length ↔
    t = .node 4 (.pair (.leaf Nullable.wrap.sof 0) (.node 2 (.leaf 2 7))) := by
  obtain ⟨⟨b, r, x, y⟩, h1, h2⟩ := bind_eq_pure oneASimple_eq
  obtain ⟨h3, h4, h5, h6⟩ := pipe_spec h1
  have h2 := pure_inj_M h2
  simp only [Prod.mk.injEq, decide_eq_true_eq] at h2
  have ht : TreeOf (rulesOf Nullable.cfg) (inputOf oneA) (.node 4 (.pair (.leaf 1 0) (.node 2 (.leaf 2 7)))) 7 0 2 :=
    .binary (B := 1) (C := 5) rfl (.leaf (by decide)) (.unary (B := 2) rfl (.leaf (by decide)))
  have hG := oneA_good (E := nullSimple) rfl rfl
  rw [trees_of hG rfl h3 h4 h5 h2.2.1 (hG.accepts ht) h2.1 t, List.mem_singleton]
  rfl

-- an evaluator that appends one value for an empty derivation
example : NullEval Nullable.grammar.forestInfo countArgs (fun _ => [0]) (fun _ => 1) where
  leaf s _ := ⟨0, [], rfl, rfl, fun _ => rfl⟩
  rule s x y h := by
    have : Nullable.grammar.forestInfo.nullingIntermediate = [] := by decide +kernel
    unfold ForestInfo.nullingRule at h
    rw [this] at h
    cases h

-- the removed symbol and the external number of rule 2, `S ::= a`
example : (Nullable.cfg.rules[2]?).map (·.nullable) = some (some (6, true)) ∧
    (Nullable.cfg.rules[2]?).map (·.origin) = some (some 0) := by decide

-- rule 0 is called with two arguments, the token and the value of the empty X
example : (do let (_, _, _, y) ← oneASimple; pure y.2 : M _) = pure [2] := by decide +kernel
example : (do
    let (_, _, _, y) ← pipe nullCompact (Compact.Bocage.new Nullable.grammar.forestInfo)
      (fun b => b.evaluateFuel 300 countArgs) oneA
    pure y.2 : M _) = pure [2] := by decide +kernel

-- the user's root has rules with external numbers only
example : ∀ d r, (rulesOf Nullable.cfg)[d]? = some r → r.lhs = Nullable.wrap.innerRoot →
    ∃ id, Nullable.grammar.forestInfo.origin d = some id := by
  have : Nullable.grammar.forestInfo.eval = [none, some 0, some 0, some 1, none] := by decide +kernel
  intro d r h1 h2
  unfold ForestInfo.origin
  rw [this]
  match d with
  | 0 => cases h1; cases h2
  | 1 | 2 => exact ⟨_, rfl⟩
  | 3 => cases h1; cases h2
  | 4 => cases h1; cases h2
  | d + 5 => cases h1

/-! The hypotheses for the empty input hold for the grammar `S ::= a | ε`. -/

def emptySimple : Env Simple.Bocage Nat := { g := Empty.grammar, F := Simple.forest, sorter := sorter }
def emptyCompact : Env Compact.Bocage Nat := { g := Empty.grammar, F := Compact.forest, sorter := sorter }
def noTokens : List Step := [(.keep, [(1, 0)])]

theorem noTokens_plain {σ : Type} {E : Env σ Nat} (hg : E.g = Empty.grammar) (hleo : E.leo = false) :
    PlainParse E Empty.cfg 5 Empty.wrap True noTokens 5 where
  prepared := hg ▸ Empty.built.toPrepared
  leo := hleo
  rules32 := by decide
  syms32 := by decide
  wrapping := by
    refine ⟨⟨5, by decide⟩, ?_, by unfold Terminal; decide, by unfold Terminal; decide⟩
    rintro g0 h rfl
    revert h
    decide
  tokens := by unfold TokensOK; decide
  hints := by
    intro st hst x hx
    simp only [noTokens, List.mem_cons, List.not_mem_nil, or_false] at hst
    rcases hst with rfl
    cases hx
  ne := by decide
  len := by decide
  honest := fun _ => by
    intro i st x hst hx
    match i with
    | 0 => cases hst; cases hx
    | i + 1 => cases hst
  plain := by
    intro i
    match i with
    | 0 => exact ⟨by decide, by unfold Terminal; decide⟩
    | k + 1 => simp [inputOf, noTokens]
  rule := by decide

theorem noTokens_good {σ : Type} {E : Env σ Nat} (hg : E.g = Empty.grammar) (hleo : E.leo = false) :
    GoodParse E Empty.cfg 5 Empty.wrap True noTokens 5 :=
  (noTokens_plain hg hleo).good Empty.built.acyclic

def noTokensSimple :=
  pipe emptySimple (Simple.Bocage.new Empty.grammar.forestInfo) (fun b => b.evaluateFuel 300 countArgs) noTokens

theorem noTokensSimple_eq : (do
    let (_, r, x, y) ← noTokensSimple
    pure (Simple.denote r.1.forest.graph 40 x, decide (r.1.forest.graph.length < 2 ^ 32), y.2) : M _) =
      pure (some [.node 3 (.leaf 1 0)], true, [0]) := by decide +kernel

/-- The hypothesis `ht` of `C20_empty_simple` and `C20_empty_compact`. -/
theorem noTokens_unique (t : PTree) : TreeOf (rulesOf Empty.cfg) (inputOf noTokens) t 5 0 noTokens.length ↔
    t = .node 3 (.leaf Empty.wrap.sof 0) := by
  obtain ⟨⟨b, r, x, y⟩, h1, h2⟩ := bind_eq_pure noTokensSimple_eq
  obtain ⟨h3, h4, h5, h6⟩ := pipe_spec h1
  have h2 := pure_inj_M h2
  simp only [Prod.mk.injEq, decide_eq_true_eq] at h2
  have ht : TreeOf (rulesOf Empty.cfg) (inputOf noTokens) (.node 3 (.leaf 1 0)) 5 0 1 :=
    .unary (B := 1) rfl (.leaf (by decide))
  have hG := noTokens_good (E := emptySimple) rfl rfl
  rw [trees_of hG rfl h3 h4 h5 h2.2.1 (hG.accepts ht) h2.1 t, List.mem_singleton]
  rfl

-- the two bocages differ on the empty input
example : (do let (_, _, _, y) ← noTokensSimple; pure y.2 : M _) = pure [0] := by decide +kernel
example : (do
    let (_, _, _, y) ← pipe emptyCompact (Compact.Bocage.new Empty.grammar.forestInfo)
      (fun b => b.evaluateFuel 300 countArgs) noTokens
    pure y.2 : M _) = pure [] := by decide +kernel

-- restoring a symbol on the right of a leaf
example : (Simple.Bocage.postprocess { graph := [.nullingLeaf 0, .leaf 3 9], info := { nullingEliminated := [some (0, true)] } }
    (.product 0 1)).map (fun p => (p.1.graph, p.2)) =
      pure ([.nullingLeaf 0, .leaf 3 9, .rule 1 0], .product 0 2) := by decide +kernel
end

end Gearley.Props
