import Verif.Props.EvalCost

/-! # C44 for inputs with one tree, in any order of one-symbol rules -/

namespace Gearley.Props
open Gearley.Spec
variable {c : Cfg} {n : Nat} {w : WrappedRoot} {nullable : Prop} {steps : List Step} {g0 : Nat}

/-- C44, simple bocage, without an order of one-symbol rules: if the input has just one tree, the forest is packed. (For ambiguous
inputs the order is needed, see `C44_needs_order_simple`.) -/
theorem C44_one_simple {E : Env Simple.Bocage Nat} {b : Simple.Bocage} (h : GoodParse E c n w nullable steps g0)
    (hF : E.F = Simple.forest) (hb : Simple.Bocage.new E.g.forestInfo = pure b) (hone : WrappedOnce (rulesOf c) w g0)
    (hlen : 1 < steps.length) (hacc : Accepts (rulesOf c) g0 steps)
    (hu : ∀ t t', TreeOf (rulesOf c) (inputOf steps) t w.innerRoot 1 steps.length →
      TreeOf (rulesOf c) (inputOf steps) t' w.innerRoot 1 steps.length → t' = t) :
    ∃ r x, (Rec.new E b >>= Rec.session E steps) = pure r ∧ r.2 = true ∧ Rec.finishedNode E r.1 = pure (some x) ∧
      (r.1.forest.graph.length < 2 ^ 32 →
        Packs (Simple.HasView r.1.forest.graph) (rulesOf c) (inputOf steps) g0 0 steps.length x) := by
  obtain ⟨t, ht⟩ := inner_tree h hlen hacc
  exact packed_one_simple h hF hb hone hacc hlen fun t' ht' => hu t t' ht ht'

/-- C44, compact bocage, without an order of one-symbol rules: if the input has just one tree, the forest is packed. -/
theorem C44_one_compact {E : Env Compact.Bocage Nat} {b : Compact.Bocage} (h : GoodParse E c n w nullable steps g0)
    (hF : E.F = Compact.forest) (hb : Compact.Bocage.new E.g.forestInfo = pure b) (hone : WrappedOnce (rulesOf c) w g0)
    (hlen : 1 < steps.length) (hacc : Accepts (rulesOf c) g0 steps)
    (hu : ∀ t t', TreeOf (rulesOf c) (inputOf steps) t w.innerRoot 1 steps.length →
      TreeOf (rulesOf c) (inputOf steps) t' w.innerRoot 1 steps.length → t' = t) :
    ∃ r x, (Rec.new E b >>= Rec.session E steps) = pure r ∧ r.2 = true ∧ Rec.finishedNode E r.1 = pure (some x) ∧
      (r.1.forest.graph.length < 2 ^ 32 →
        Packs (Compact.HasView r.1.forest.graph) (rulesOf c) (inputOf steps) g0 0 steps.length x) := by
  obtain ⟨t, ht⟩ := inner_tree h hlen hacc
  exact packed_one_compact h hF hb hone hacc hlen fun t' ht' => hu t t' ht ht'

section
open Gearley.Example Gearley.Example.Nulls Gearley.Example.Conformance

example {b : Simple.Bocage} (hb : Simple.Bocage.new nulls.forestInfo = pure b) :=
  C44_one_simple (E := simple nulls) (foo_good rfl rfl) rfl hb foo_once (by decide) foo_accepts fun t t' ht ht' =>
    ((foo_unique _).1 ht').trans ((foo_unique _).1 ht).symm
example {b : Compact.Bocage} (hb : Compact.Bocage.new nulls.forestInfo = pure b) :=
  C44_one_compact (E := compact nulls) (foo_good rfl rfl) rfl hb foo_once (by decide) foo_accepts fun t t' ht ht' =>
    ((foo_unique _).1 ht').trans ((foo_unique _).1 ht).symm

end
end Gearley.Props
