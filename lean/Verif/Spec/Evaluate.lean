import Verif.Spec.Denote

/-!
# Specification: the values of a derivation tree

An evaluator gives values to tokens (`leaf`), to rules applied to arguments (`product`) and to empty derivations
(`nulling`). The values of a tree are computed bottom up. Rules without an external origin (made by binarization) pass
the values of their children on to the parent. A rule from which a nullable symbol was removed gets the values of that
symbol back, on the right (`true`) or on the left (`false`).
-/

namespace Gearley
open Gearley.Spec
variable {α : Type}

/-- `nv s` are the values of the empty derivation of `s`: one value made by the evaluator, which appends it to the vector
of results (possibly followed by more entries), or the values of the two symbols of the rule for `s`. `nc` counts the
entries and the rules. The equations of `nc` exclude cycles among the rules. -/
structure NullEval (info : ForestInfo) (E : Evaluator α) (nv : Nat → List α) (nc : Nat → Nat) : Prop where
  leaf : ∀ s, info.nullingRule s = none →
    ∃ v extra, nv s = [v] ∧ nc s = 1 + extra.length ∧ ∀ rs, E.nulling s rs = rs ++ v :: extra
  rule : ∀ s x y, info.nullingRule s = some (x, y) → nv s = nv x ++ nv y ∧ nc s = nc x + nc y + 1

/-- The symbol removed from the right-hand side of rule `d`, and its side. -/
def ForestInfo.removed (info : ForestInfo) (d : Nat) : Option (Nat × Bool) := (info.nullingEliminated[d]?).join

/-- The external number of rule `d`. -/
def ForestInfo.origin (info : ForestInfo) (d : Nat) : Option Nat := (info.eval[d]?).join

/-- A rule applied to arguments. -/
def applyRule (info : ForestInfo) (E : Evaluator α) (d : Nat) (args : List α) : List α :=
  match info.origin d with
  | some id => [E.product id args]
  | none => args

/-- The values of a tree. -/
def treeVals (info : ForestInfo) (E : Evaluator α) (nv : Nat → List α) : PTree → List α
  | .leaf s v => [E.leaf s v]
  | .nulling s => nv s
  | .pair a b => treeVals info E nv a ++ treeVals info E nv b
  | .node d (.pair a b) => applyRule info E d (treeVals info E nv a ++ treeVals info E nv b)
  | .node d f =>
    let u := treeVals info E nv f
    applyRule info E d (match info.removed d with
      | none => u
      | some (s, true) => u ++ nv s
      | some (s, false) => nv s ++ u)

/-- A bound on the number of values computed and of nodes added during the evaluation of a tree. -/
def treeCost (info : ForestInfo) (nc : Nat → Nat) : PTree → Nat
  | .leaf _ _ => 1
  | .nulling s => nc s
  | .pair a b => treeCost info nc a + treeCost info nc b
  | .node _ (.pair a b) => treeCost info nc a + treeCost info nc b + 1
  | .node d f =>
    treeCost info nc f + (match info.removed d with
      | none => 0
      | some (s, _) => nc s) + 1

end Gearley
