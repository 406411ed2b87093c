import Verif.Model.Evaluator

/-!
# The simple bocage (simple-bocage/src/{bocage,node,traverse}.rs)
-/

namespace Gearley.Simple

/-- `enum Node` (node.rs:6-34). -/
inductive Node where
  | sum (nonterminal count : Nat)
  | product (action factors : Nat)
  | rule (left right : Nat)
  | leaf (symbol values : Nat)
  | nullingLeaf (symbol : Nat)
  deriving DecidableEq, Repr

/-- `struct Bocage` (bocage.rs:11-15). -/
structure Bocage where
  graph : List Node
  info : ForestInfo
  /-- A `u32` in the code; it never exceeds the length of the graph. -/
  summandCount : Nat := 0
  deriving DecidableEq, Repr

/-- Body of the loop in `initialize_nulling` (bocage.rs:43-54). -/
def nullingRule (graph : List Node) (r : Nat × Nat × Nat) : M (List Node) := do
  let graph := graph ++ [.rule (u32 r.2.1) (u32 r.2.2)]
  setM graph (u32 r.1) (.product nullAction (u32Pred graph.length))

/-- `initialize_nulling` (bocage.rs:32-55) on an empty graph. -/
def nullingGraph (info : ForestInfo) : M (List Node) := do
  let count := info.maxNullingSymbol.getD 0
  assertM (count < 2 ^ 20)
  info.nullingIntermediate.foldlM nullingRule ((List.range (count + 1)).map .nullingLeaf)

/-- `Bocage::new` / `with_capacity` (bocage.rs:18-30). -/
def Bocage.new (info : ForestInfo) : M Bocage := do
  let graph ← nullingGraph info
  pure { graph := graph, info := info }

/-- `push_summand` (bocage.rs:120-126). -/
def Bocage.pushSummand (b : Bocage) (it : Item Nat) : Bocage :=
  { b with graph := b.graph ++ [.product it.dot it.node], summandCount := b.summandCount + 1 }

/-- `product` (bocage.rs:129-139). -/
def Bocage.product (b : Bocage) (l r : Nat) : Bocage × Nat :=
  let graph := b.graph ++ [.rule l r]
  ({ b with graph := graph }, u32Pred graph.length)

/-- `sum` (bocage.rs:142-162). -/
def Bocage.sum (b : Bocage) (lhs : Nat) : M (Bocage × Nat) := do
  match b.summandCount with
  | 0 => panicM .unreachable
  | 1 => pure ({ b with summandCount := 0 }, u32Pred b.graph.length)
  | n =>
    let first ← subM b.graph.length n
    let summand ← indexM b.graph first
    let graph ← setM (b.graph ++ [summand]) first (.sum lhs (u32 n))
    pure ({ b with graph := graph, summandCount := 0 }, u32 first)

/-- `leaf` (bocage.rs:165-172). -/
def Bocage.leaf (b : Bocage) (token value : Nat) : Bocage × Nat :=
  ({ b with graph := b.graph ++ [.leaf token value] }, u32 b.graph.length)

/-- `impl Forest for Bocage` (bocage.rs:109-178); `begin_sum` (115-117) does nothing, `nulling` (175-177) is the symbol
number. -/
def forest : ForestOps Bocage Nat where
  beginSum b := pure b
  pushSummand b it := pure (b.pushSummand it)
  sum b lhs _ := b.sum lhs
  product b l r := pure (b.product l r)
  leaf b token _ value := pure (b.leaf token value)
  nulling _ token := pure (u32 token)

/-- `postprocess_product_tree_node` (bocage.rs:79-106). -/
def Bocage.postprocess (b : Bocage) (node : Node) : M (Bocage × Node) := do
  match node with
  | .product action factors => do
    match ← indexM b.graph factors with
    | .rule .. => pure (b, node)
    | _ =>
      if action = nullAction then pure (b, node)
      else do
        match ← indexM b.info.nullingEliminated action with
        | some (sym, dir) =>
          let lr := if dir then (factors, u32 sym) else (u32 sym, factors)
          let (b, rule) := b.product lr.1 lr.2
          pure (b, .product action rule)
        | none => pure (b, node)
  | _ => pure (b, node)

/-- The local variables of `evaluate`. -/
structure Eval (α : Type) where
  b : Bocage
  results : List α
  stack : List WorkNode
  deriving DecidableEq, Repr

/-- The `match` in the loop of `evaluate` (traverse.rs:72-156) for the popped `work`; `st.stack` is the rest of the
stack. -/
def Eval.visit {α} (E : Evaluator α) (st : Eval α) (work : WorkNode) (node : Node) : M (Eval α) := do
  match node, work.child with
  | .sum _ count, n =>
    if n < count then
      pure { st with stack := st.stack ++ [{ work with child := n + 1 }, { node := u32 (work.node + n + 1), parent := work.parent }] }
    else pure st
  | .rule left _, 0 =>
    pure { st with stack := st.stack ++ [{ work with child := 1 }, { node := left, parent := work.parent }] }
  | .rule _ right, 1 =>
    pure { st with stack := st.stack ++ [{ work with child := 2 }, { node := right, parent := work.parent }] }
  | .rule _ _, _ => pure st
  | .leaf symbol values, _ =>
    let results := st.results ++ [E.leaf symbol values]
    let stack ← pushResults st.stack work.parent [u32Pred results.length]
    pure { st with results := results, stack := stack }
  | .product _ factors, 0 =>
    pure { st with stack := st.stack ++ [{ work with child := 1 }, { node := factors, parent := st.stack.length }] }
  | .product action _, _ =>
    match st.b.info.originId action with
    | some id =>
      let args ← work.results.mapM fun v => indexM st.results v
      let results := st.results ++ [E.product id args]
      let stack ← pushResults st.stack work.parent [u32Pred results.length]
      pure { st with results := results, stack := stack }
    | none =>
      let stack ← pushResults st.stack work.parent work.results
      pure { st with stack := stack }
  | .nullingLeaf symbol, _ =>
    let results := E.nulling symbol st.results
    let stack ← pushResults st.stack work.parent [u32 st.results.length]
    pure { st with results := results, stack := stack }

/-- One round of the `while` loop of `evaluate` (traverse.rs:66-157). The sole entry left at the end is the dummy
parent of the root. -/
def Eval.step {α} (E : Evaluator α) (st : Eval α) : M (Eval α ⊕ Eval α) := do
  if 1 < st.stack.length then do
    let work ← unwrapM st.stack.getLast?
    let st := { st with stack := st.stack.dropLast }
    let b ← (if work.child = 0 then do
        let node ← indexM st.b.graph work.node
        let (b, node) ← st.b.postprocess node
        let graph ← setM b.graph work.node node
        pure { b with graph := graph }
      else pure st.b)
    let node ← indexM b.graph work.node
    let st ← Eval.visit E { st with b := b } work node
    pure (.inl st)
  else pure (.inr st)

/-- Choice of the node to evaluate (traverse.rs:26-47): `inl` is the root, `inr` the early return. -/
def Bocage.evalRoot {α} (E : Evaluator α) (b : Bocage) (root : Nat) : M (Nat ⊕ List α) := do
  match ← indexM b.graph root with
  | .product _ factors => do
    match ← indexM b.graph factors with
    | .rule left right => do
      match ← indexM b.graph left with
      | .leaf symbol _ => do
        assertM (symbol = b.info.sof)
        pure (.inl right)
      | _ => panicM .assert
    | _ => pure (.inr (E.nulling b.info.start []))
  | _ => pure (.inl root)

/-- The initial work stack (traverse.rs:51-64). -/
def evalStack (root : Nat) : List WorkNode :=
  [{ node := nullHandle, parent := 0 }, { node := root, parent := 0 }]

/-- `evaluate` (traverse.rs:24-164), generic in the interpretation `run` of its `while` loop. -/
def Bocage.evaluateWith {α} (run : Eval α → M (Eval α)) (E : Evaluator α) (b : Bocage) (root : Nat) :
    M (Bocage × List α) := do
  match ← b.evalRoot E root with
  | .inr values => pure (b, values)
  | .inl root => do
    let st ← run { b := b, results := [], stack := evalStack root }
    let w ← indexM st.stack 0
    let values ← takeResults E.dflt w.results st.results
    pure (st.b, values)

/-- `evaluate` (traverse.rs:24-164). -/
def Bocage.evaluate {α} (E : Evaluator α) : Bocage → Nat → M (Bocage × List α) :=
  Bocage.evaluateWith (loop (Eval.step E)) E

/-- `evaluate` with a bounded number of rounds, to compute examples. -/
def Bocage.evaluateFuel {α} (n : Nat) (E : Evaluator α) : Bocage → Nat → M (Bocage × List α) :=
  Bocage.evaluateWith (loopFuel (Eval.step E) n) E

end Gearley.Simple
