import Verif.Model.CompactGraph
import Verif.Model.SimpleBocage

/-!
# The compact bocage (compact-bocage/src/{bocage,traverse}.rs)
-/

namespace Gearley.Compact

/-- `struct Bocage` (bocage.rs:9-16). -/
structure Bocage where
  graph : List Nat
  info : ForestInfo
  sumStart : Option Nat := none
  numSummands : Nat := 0
  nullingLimit : Nat := 0
  deriving DecidableEq, Repr

/-- `NodeHandle::mul` (gearley-forest/src/node_handle.rs:14-16). -/
def mul9 (h : Nat) : Nat := u32 (h * 9)

/-- The last loop of `initialize_nulling` (bocage.rs:58-79). The vector `nulling` built before it (bocage.rs:41-57) is
built by the same statements as in the simple bocage, `Simple.nullingGraph`. -/
def expandNulling (g : List Nat) : Simple.Node → M (List Nat)
  | .product action factors => pure (pushExpanded g (.product action (mul9 factors)))
  | .rule left right => pure (pushExpanded g (.rule (mul9 left) (mul9 right)))
  | .nullingLeaf symbol => pure (pushExpanded g (.nullingLeaf symbol))
  | _ => panicM .unreachable

/-- `Bocage::new` / `with_capacity` / `initialize_nulling` (bocage.rs:19-81). -/
def Bocage.new (info : ForestInfo) : M Bocage := do
  let nulling ← Simple.nullingGraph info
  let graph ← nulling.foldlM expandNulling []
  pure { graph := graph, info := info, nullingLimit := len graph }

/-- `begin_sum` (bocage.rs:145-149). -/
def Bocage.beginSum (b : Bocage) : Bocage :=
  { b with sumStart := some (len b.graph), numSummands := 0, graph := push b.graph .beginSum }

/-- `push_summand` (bocage.rs:152-158). -/
def Bocage.pushSummand (b : Bocage) (it : Item Nat) : Bocage :=
  { b with graph := push b.graph (.summand it.dot it.node), numSummands := b.numSummands + 1 }

/-- `product` (bocage.rs:161-172). -/
def Bocage.product (b : Bocage) (l r : Nat) : Bocage × Nat :=
  ({ b with graph := push b.graph (.rule l r) }, len b.graph)

/-- `sum` (bocage.rs:175-184). -/
def Bocage.sum (b : Bocage) : M (Bocage × Nat) := do
  let result ← unwrapM b.sumStart
  let b' := { b with sumStart := none, graph := push b.graph .endSum }
  if b.numSummands = 1 then pure (b', u32 (result + 1)) else pure (b', result)

/-- `leaf` (bocage.rs:187-194). -/
def Bocage.leaf (b : Bocage) (token value : Nat) : Bocage × Nat :=
  ({ b with graph := push b.graph (.leaf token value) }, len b.graph)

/-- `impl Forest for Bocage` (bocage.rs:139-200); `nulling` (197-199). -/
def forest : ForestOps Bocage Nat where
  beginSum b := pure b.beginSum
  pushSummand b it := pure (b.pushSummand it)
  sum b _ _ := b.sum
  product b l r := pure (b.product l r)
  leaf b token _ value := pure (b.leaf token value)
  nulling _ token := pure (u32 (token * 9))

/-- `postprocess_product_tree_node` (bocage.rs:105-132). -/
def Bocage.postprocess (b : Bocage) (node : Node) : M (Bocage × Node) := do
  match node with
  | .product action factors | .summand action factors => do
    match ← get b.graph factors with
    | .rule .. => pure (b, node)
    | _ =>
      if action = nullAction then pure (b, node)
      else do
        match ← indexM b.info.nullingEliminated action with
        | some (sym, dir) =>
          let lr := if dir then (factors, mul9 (u32 sym)) else (mul9 (u32 sym), factors)
          let (b, rule) := b.product lr.1 lr.2
          pure (b, .product action rule)
        | none => pure (b, node)
  | _ => pure (b, node)

/-- The local variables of `evaluate`. -/
structure Eval (α : Type) where
  b : Bocage
  results : List α
  stack : List WorkNode
  deriving DecidableEq, Repr

/-- The second `Product`/`Summand` arm of the `match` in `evaluate` up to the test for `Summand`
(traverse.rs:154-174). -/
def Eval.finish {α} (E : Evaluator α) (st : Eval α) (work : WorkNode) (action : Nat) : M (Eval α) := do
  match st.b.info.originId action with
  | some id =>
    let args ← work.results.mapM fun v => indexM st.results v
    let results := st.results ++ [E.product id args]
    let stack ← pushResults st.stack work.parent [u32Pred results.length]
    pure { st with results := results, stack := stack }
  | none =>
    let stack ← pushResults st.stack work.parent work.results
    pure { st with stack := stack }

/-- The `match` in the loop of `evaluate` (traverse.rs:99-191) for the popped `work`; `st.stack` is the rest of the
stack. The `println!`s are left out. -/
def Eval.visit {α} (E : Evaluator α) (st : Eval α) (work : WorkNode) (node : Node) : M (Eval α) := do
  match node, work.child with
  | .beginSum, _ => pure { st with stack := st.stack ++ [{ node := u32 (work.node + 1), parent := work.parent }] }
  | .endSum, _ => pure st
  | .rule left _, 0 =>
    pure { st with stack := st.stack ++ [{ work with child := 1 }, { node := left, parent := work.parent }] }
  | .rule _ right, 1 =>
    pure { st with stack := st.stack ++ [{ work with child := 2 }, { node := right, parent := work.parent }] }
  | .rule _ _, _ => pure st
  | .leaf symbol values, _ =>
    let results := st.results ++ [E.leaf symbol values]
    let stack ← pushResults st.stack work.parent [u32Pred results.length]
    pure { st with results := results, stack := stack }
  | .product _ factors, 0 =>
    pure { st with stack := st.stack ++ [{ work with child := 1 }, { node := factors, parent := st.stack.length }] }
  | .summand _ factors, 0 =>
    pure { st with stack := st.stack ++ [{ work with child := 1 }, { node := factors, parent := st.stack.length }] }
  | .product action _, _ => st.finish E work action
  | .summand action _, _ => do
    let st ← st.finish E work action
    let size ← getNodeSize st.b.graph work.node
    pure { st with stack := st.stack ++ [{ node := u32 (work.node + size), parent := work.parent }] }
  | .nullingLeaf symbol, _ =>
    let results := E.nulling symbol st.results
    let stack ← pushResults st.stack work.parent [u32 st.results.length]
    pure { st with results := results, stack := stack }

/-- One round of the `while` loop of `evaluate` (traverse.rs:92-192). -/
def Eval.step {α} (E : Evaluator α) (st : Eval α) : M (Eval α ⊕ Eval α) := do
  if 1 < st.stack.length then do
    let work ← unwrapM st.stack.getLast?
    let st := { st with stack := st.stack.dropLast }
    let node ← get st.b.graph work.node
    let (b, node) ← (if work.child = 0 then st.b.postprocess node else pure (st.b, node))
    let st ← Eval.visit E { st with b := b } work node
    pure (.inl st)
  else pure (.inr st)

/-- The check of the start-of-file leaf (traverse.rs:40-45, 56-61). -/
def Bocage.checkSof (b : Bocage) (left : Nat) : M Unit := do
  match ← get b.graph left with
  | .leaf symbol _ => assertM (symbol = b.info.sof)
  | _ => panicM .assert

/-- Choice of the node to evaluate (traverse.rs:34-71): `inl` is the root, `inr` the early return. -/
def Bocage.evalRoot {α} (b : Bocage) (root : Nat) : M (Nat ⊕ List α) := do
  match ← get b.graph root with
  | .summand _ factors => do
    match ← get b.graph factors with
    | .rule left right => do
      b.checkSof left
      pure (.inl right)
    | _ => pure (.inr [])
  | .beginSum => do
    match ← get b.graph (u32 (root + 1)) with
    | .summand _ factors => do
      match ← get b.graph factors with
      | .rule left right => do
        b.checkSof left
        pure (.inl right)
      | _ => panicM .assert
    | _ => panicM .assert
  | _ => panicM .assert

/-- `evaluate` (traverse.rs:24-199), generic in the interpretation `run` of its `while` loop. -/
def Bocage.evaluateWith {α} (run : Eval α → M (Eval α)) (E : Evaluator α) (b : Bocage) (root : Nat) :
    M (Bocage × List α) := do
  match ← (b.evalRoot root : M (Nat ⊕ List α)) with
  | .inr values => pure (b, values)
  | .inl root => do
    let st ← run { b := b, results := [], stack := Simple.evalStack root }
    let w ← indexM st.stack 0
    let values ← takeResults E.dflt w.results st.results
    pure (st.b, values)

/-- `evaluate` (traverse.rs:24-199). -/
def Bocage.evaluate {α} (E : Evaluator α) : Bocage → Nat → M (Bocage × List α) :=
  Bocage.evaluateWith (loop (Eval.step E)) E

/-- `evaluate` with a bounded number of rounds, to compute examples. -/
def Bocage.evaluateFuel {α} (n : Nat) (E : Evaluator α) : Bocage → Nat → M (Bocage × List α) :=
  Bocage.evaluateWith (loopFuel (Eval.step E) n) E

end Gearley.Compact
