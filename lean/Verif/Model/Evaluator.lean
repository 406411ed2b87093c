import Verif.Model.Grammar
import Verif.Model.Recognizer

/-!
# Evaluators, node handles and the work stack shared by both bocages

`u32` arithmetic on node handles is modelled as in a release build: it wraps modulo `2 ^ 32`. In a debug build the same
additions and subtractions panic instead; both agree while a graph is shorter than `2 ^ 32`, which is the hypothesis of
every theorem about the meaning of handles.
-/

namespace Gearley

/-- `x as u32` and wrapping `u32` arithmetic. -/
def u32 (x : Nat) : Nat := x % 2 ^ 32

/-- `x as u32 - 1` in a release build. -/
def u32Pred (x : Nat) : Nat := u32 (u32 x + (2 ^ 32 - 1))

/-- `NULL_ACTION` (simple-bocage/src/node.rs:36, compact-bocage/src/node.rs:36). -/
def nullAction : Nat := 2 ^ 32 - 1

/-- `NULL_HANDLE` (gearley-forest/src/node_handle.rs:6). -/
def nullHandle : Nat := 2 ^ 32 - 1

/-- `trait Evaluate` (gearley-forest/src/evaluate.rs:3-12). The methods take `&self` and are modelled as pure functions.
`nulling` gets the vector of results mutably and may change it in any way. `dflt` is `Elem::default()`. -/
structure Evaluator (α : Type) where
  leaf : (symbol values : Nat) → α
  product : (action : Nat) → (args : List α) → α
  nulling : (symbol : Nat) → (results : List α) → List α
  dflt : α

/-- `WorkNode` (simple-bocage/src/traverse.rs:13-18, compact-bocage/src/traverse.rs:13-18). -/
structure WorkNode where
  node : Nat
  child : Nat := 0
  parent : Nat
  results : List Nat := []
  deriving DecidableEq, Repr

/-- `work_stack[parent].results.extend(values)`; panics when there is no such stack entry. The stack is a list with the
bottom first. -/
def pushResults (stack : List WorkNode) (parent : Nat) (values : List Nat) : M (List WorkNode) := do
  let w ← indexM stack parent
  pure (stack.set parent { w with results := w.results ++ values })

/-- The last lines of both `evaluate` functions: move the results out of the vector one after the other, leaving
`Default::default()` behind. -/
def takeResults {α} (dflt : α) : List Nat → List α → M (List α)
  | [], _ => pure []
  | v :: vs, results => do
    let a ← indexM results v
    let rest ← takeResults dflt vs (results.set v dflt)
    pure (a :: rest)

/-- `ForestInfo::max_nulling_symbol` (gearley-grammar/src/lib.rs:203-214). -/
def ForestInfo.maxNullingSymbol (info : ForestInfo) : Option Nat :=
  ((info.nullingEliminated.filterMap id).map (·.1) ++
    info.nullingIntermediate.flatMap fun r => [r.1, r.2.1, r.2.2]).max?

/-- `ForestInfo::external_origin` (gearley-grammar/src/lib.rs:216-218) followed by the test `id != !0` of both
`evaluate` functions: the external rule number, if there is one. -/
def ForestInfo.originId (info : ForestInfo) (action : Nat) : Option Nat :=
  if action = nullAction then none else (info.eval[action]?).join

end Gearley
