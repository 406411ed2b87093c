import Verif.Model.Grammar
import Verif.Model.Heap

/-!
# Model of `gearley-recognizer/src/{recognizer,lookahead,event}.rs`
-/

namespace Gearley

/-- `trait Forest` (gearley-forest/src/forest.rs:7-25): every operation gets the forest state and may panic.
`nulling` takes `&self`, so it returns no new state. -/
structure ForestOps (σ ν : Type) where
  beginSum : σ → M σ
  pushSummand : σ → Item ν → M σ
  sum : σ → (lhs : Nat) → (origin : Nat) → M (σ × ν)
  product : σ → ν → ν → M (σ × ν)
  leaf : σ → (token pos value : Nat) → M (σ × ν)
  nulling : σ → (token : Nat) → M ν

/-- `NullForest` (gearley-forest/src/null_forest.rs:8-35). -/
def nullForest : ForestOps Unit Unit where
  beginSum _ := pure ()
  pushSummand _ _ := pure ()
  sum _ _ _ := pure ((), ())
  product _ _ _ := pure ((), ())
  leaf _ _ _ _ := pure ((), ())
  nulling _ _ := pure ()

/-- What stays fixed during a run: the grammar, the forest implementation, the policy constants `P::LOOKAHEAD` and
`P::LEO`, and the sort used by std. -/
structure Env (σ ν : Type) where
  g : DefaultGrammar
  F : ForestOps σ ν
  lookahead : Bool := true
  leo : Bool := false
  sorter : Sorter

/-- `Recognizer` (recognizer.rs:35-65) without the capacity-only policy and without the Leo chart (which is only
touched when `P::LEO`, where the code panics with `todo!`). -/
structure Rec (σ ν : Type) where
  forest : σ
  lookahead : Option Nat := none
  predicted : BitMatrix
  medial : Vec2d (Item ν)
  complete : List (Item ν)
  deriving DecidableEq, Repr

/-- `usize` arithmetic of `len.wrapping_sub(2)`. -/
def wrappingSub2 (n : Nat) : Nat := if 2 ≤ n then n - 2 else 2 ^ 64 + n - 2

/-- `!0usize`. -/
def maxUsize : Nat := 2 ^ 64 - 1

/-- `a + 1` on `usize` in a debug build. -/
def succM (a : Nat) : M Nat := if a < maxUsize then pure (a + 1) else panicM .overflow

namespace Rec
variable {σ ν : Type} (E : Env σ ν)

/-- `earleme` (recognizer.rs:379-381). -/
def earleme (s : Rec σ ν) : Nat := wrappingSub2 s.medial.len

/-- Predict `sym` in row `i`: `self.predicted[i].predict(sym, grammar.prediction_row(sym))`. -/
def predictIn (m : BitMatrix) (i sym : Nat) : M BitMatrix := do
  let row ← m.row i
  let src ← E.g.predictionRow sym
  let row' ← predictRow row sym src
  pure { m with rows := m.rows.set i row' }

/-- `with_forest_and_policy` (recognizer.rs:96-116). -/
def new (forest : σ) : M (Rec σ ν) := do
  let predicted ← predictIn E (BitMatrix.new 8 E.g.syms) 0 E.g.startSym
  pure { forest := forest, predicted := predicted, medial := Vec2d.new, complete := [] }

/-- `begin_earleme` (recognizer.rs:118-140). -/
def beginEarleme (s : Rec σ ν) : Rec σ ν := { s with medial := s.medial.nextSet }

/-- `lookahead().set_hint(sym)` (lookahead.rs:20-22). -/
def setHint (s : Rec σ ν) (sym : Nat) : Rec σ ν := { s with lookahead := some sym }

/-- `lookahead().clear_hint()` (lookahead.rs:24-26). -/
def clearHint (s : Rec σ ν) : Rec σ ν := { s with lookahead := none }

/-- `will_be_useful` in `complete_medial_items` (recognizer.rs:480-489). -/
def medialUseful (hint : Option Nat) (dot : Nat) : M Bool :=
  match hint with
  | none => pure true
  | some sym => do
    let lhs ← E.g.getLhs dot
    if lhs ≥ E.g.syms then pure true
    else do
      let row ← E.g.lhsLrSet lhs
      indexM row sym

/-- `will_be_useful` in `complete_predictions` (recognizer.rs:505-513). -/
def predictionUseful (hint : Option Nat) (dot : Nat) : M Bool :=
  match hint with
  | none => pure true
  | some sym => do
    let x ← E.g.rhs1OrLhs dot
    if x ≥ E.g.syms then pure true
    else do
      let row ← E.g.lookaheadSet dot
      indexM row sym

/-- The comparison `(rhs1(dot), Greater).cmp(&(Some(sym), Less))` (recognizer.rs:463-466). `None` is below `Some`, and
`Greater` is above `Less`. -/
def cmpRhs1 (r : Option Nat) (sym : Nat) : Ordering :=
  match r with
  | none => .lt
  | some x => (compare x sym).then .gt

/-- `take_while` with a predicate that may panic. -/
def takeWhileM {α} (p : α → M Bool) : List α → M (List α)
  | [] => pure []
  | x :: l => do
    if ← p x then do
      let r ← takeWhileM p l
      pure (x :: r)
    else pure []

/-- The items found by `complete_medial_items` (recognizer.rs:457-475). Rust's iterator is lazy; the predicate reads
only the grammar, so taking the prefix first is equivalent. -/
def medialMatches (set : List (Item ν)) (sym : Nat) : M (List (Item ν)) := do
  let idx ← bsearchBy set fun ei => do
    let r ← E.g.getRhs1 ei.dot
    pure (cmpRhs1 r sym)
  let innerStart := match idx with
    | .ok i => i
    | .error i => i
  let tail ← sliceFromM set innerStart
  takeWhileM (fun ei => do
    let r ← E.g.getRhs1 ei.dot
    pure (decide (r = some sym))) tail

/-- One item of the loop of `complete_medial_items` (recognizer.rs:476-497). -/
def completeMedialItem (rhsLink : ν) (s : Rec σ ν) (item : Item ν) : M (Rec σ ν) := do
  let useful ← medialUseful E s.lookahead item.dot
  if !E.lookahead || useful then do
    let (forest, node) ← E.F.product s.forest item.node rhsLink
    let heap ← Heap.push s.complete { item with node := node }
    pure { s with forest := forest, complete := heap }
  else pure s

/-- `complete_medial_items` (recognizer.rs:452-498). -/
def completeMedialItems (s : Rec σ ν) (setId sym : Nat) (rhsLink : ν) : M (Rec σ ν) := do
  let set ← s.medial.index setId
  let items ← medialMatches E set sym
  items.foldlM (completeMedialItem E rhsLink) s

/-- One transition of the first loop of `complete_predictions` (recognizer.rs:503-559). -/
def completePrediction (setId : Nat) (rhsLink : ν) (p : Rec σ ν × Nat) (trans : PT) : M (Rec σ ν × Nat) := do
  let wasPredicted ← p.1.predicted.get setId trans.symbol
  let useful ← predictionUseful E p.1.lookahead trans.dot
  if wasPredicted && (!E.lookahead || useful) then
    pure ({ p.1 with medial := p.1.medial.pushItem ⟨trans.dot, setId, rhsLink⟩ },
      p.2 + if trans.isUnary then 0 else 1)
  else pure p

/-- `complete_predictions` (recognizer.rs:501-565). -/
def completePredictions (s : Rec σ ν) (setId sym : Nat) (rhsLink : ν) : M (Rec σ ν) := do
  let last ← s.medial.last
  let comps ← E.g.completions sym
  let (s, binary) ← comps.foldlM (completePrediction E setId rhsLink) (s, last.length)
  let last ← s.medial.last
  let heap ← (last.drop binary).foldlM Heap.push s.complete
  let extra ← subM last.length binary
  let keep ← subM s.medial.itemCount extra
  pure { s with complete := heap, medial := s.medial.truncateChart keep }

/-- `complete_generated_binary_predictions` (recognizer.rs:598-642). -/
def completeGenerated (s : Rec σ ν) (setId sym : Nat) (rhsLink : ν) : M (Rec σ ν) := do
  let (binary, unary) ← E.g.genCompletion sym
  let s ← (match unary with
    | some trans => do
      let wasPredicted ← s.predicted.get setId trans.symbol
      if wasPredicted then do
        let heap ← Heap.push s.complete ⟨trans.dot, setId, rhsLink⟩
        pure { s with complete := heap }
      else pure s
    | none => pure s : M (Rec σ ν))
  match binary with
  | some trans => do
    let wasPredicted ← s.predicted.get setId trans.symbol
    if wasPredicted then
      pure { s with medial := s.medial.pushItem ⟨trans.dot, setId, rhsLink⟩ }
    else pure s
  | none => pure s

/-- `complete` (recognizer.rs:415-449). With `P::LEO`, `complete_leo` is `todo!()` (line 568). -/
def completeSym (s : Rec σ ν) (setId sym : Nat) (rhsLink : ν) : M (Rec σ ν) :=
  if sym ≥ E.g.syms then completeGenerated E s setId sym rhsLink
  else do
    let pred ← s.predicted.get setId sym
    if pred then
      if E.leo then panicM .todo
      else do
        let s ← completeMedialItems E s setId sym rhsLink
        completePredictions E s setId sym rhsLink
    else pure s

/-- `scan` (recognizer.rs:144-158). -/
def scan (s : Rec σ ν) (symbol value : Nat) : M (Rec σ ν) := do
  assertM (s.earleme != maxUsize)
  let (forest, node) ← E.F.leaf s.forest symbol (s.earleme + 1) value
  completeSym E { s with forest := forest } s.earleme symbol node

/-- `next_sum` (recognizer.rs:656-667): origin and symbol of the next group. -/
def nextSum (s : Rec σ ν) : M (Option (Nat × Nat)) :=
  match Heap.peek s.complete with
  | some ei => do
    let lhs ← E.g.getLhs ei.dot
    pure (some (ei.origin, lhs))
  | none => pure none

/-- `next_summand` (recognizer.rs:695-707). -/
def nextSummand (s : Rec σ ν) (origin lhs : Nat) : M (Rec σ ν × Option (Item ν)) :=
  match Heap.peek s.complete with
  | some ei => do
    let l ← E.g.getLhs ei.dot
    if origin = ei.origin ∧ lhs = l then do
      let (heap, _) ← Heap.pop s.complete
      pure ({ s with complete := heap }, some ei)
    else pure (s, none)
  | none => pure (s, none)

/-- `push_summand` (recognizer.rs:711-713). -/
def pushSummand (s : Rec σ ν) (item : Item ν) : M (Rec σ ν) := do
  let forest ← E.F.pushSummand s.forest item
  pure { s with forest := forest }

/-- `complete_sum` (recognizer.rs:717-721). -/
def completeSum (s : Rec σ ν) (origin lhs : Nat) : M (Rec σ ν × ν) := do
  let (forest, node) ← E.F.sum s.forest lhs origin
  let s ← completeSym E { s with forest := forest } origin lhs node
  pure (s, node)

/-- The loop of `complete_entire_sum` (recognizer.rs:680-682). Fuel: the number of queued items, one of which is
removed by every round. -/
def summandLoop (origin lhs : Nat) : Nat → Rec σ ν → M (Rec σ ν)
  | 0, s => pure s
  | fuel + 1, s => do
    match ← nextSummand E s origin lhs with
    | (s, some item) => do
      let s ← pushSummand E s item
      summandLoop origin lhs fuel s
    | (s, none) => pure s

/-- `complete_entire_sum` (recognizer.rs:677-685). -/
def completeEntireSum (s : Rec σ ν) (origin lhs : Nat) : M (Rec σ ν) := do
  let forest ← E.F.beginSum s.forest
  let s := { s with forest := forest }
  let s ← summandLoop E origin lhs s.complete.length s
  let (s, _) ← completeSum E s origin lhs
  pure s

/-- The loop of `skip_entire_sum` (recognizer.rs:688-691). -/
def skipEntireSum (origin lhs : Nat) : Nat → Rec σ ν → M (Rec σ ν)
  | 0, s => pure s
  | fuel + 1, s => do
    match ← nextSummand E s origin lhs with
    | (s, some _) => skipEntireSum origin lhs fuel s
    | (s, none) => pure s

/-- One round of `while let Some(completion) = self.next_sum()` (recognizer.rs:648-651). -/
def completeStep (s : Rec σ ν) : M (Rec σ ν ⊕ Rec σ ν) := do
  match ← nextSum E s with
  | some (origin, lhs) => do
    let s ← completeEntireSum E s origin lhs
    pure (.inl s)
  | none => pure (.inr s.clearHint)

/-- `complete_all_sums_entirely` (recognizer.rs:647-653). -/
def completeAll (s : Rec σ ν) : M (Rec σ ν) := loop (completeStep E) s

/-- `complete_all_sums_entirely` with a bound on the number of groups, for computing concrete runs. -/
def completeAllFuel (n : Nat) (s : Rec σ ν) : M (Rec σ ν) := loopFuel (completeStep E) n s

/-- `is_exhausted` (recognizer.rs:207-209). -/
def isExhausted (s : Rec σ ν) : M Bool := do
  let last ← s.medial.last
  pure (last.isEmpty && s.complete.isEmpty)

/-- `sort_medial_items` (recognizer.rs:212-224). Keys are computed first; computing a key reads only the grammar. For
fewer than two items the code computes no key, hence no panic. -/
def sortMedial (s : Rec σ ν) : M (Rec σ ν) := do
  let medial ← s.medial.modifyLast fun l =>
    if l.length < 2 then pure l
    else do
      let keyed ← l.mapM fun item => do
        let r ← E.g.getRhs1 item.dot
        let r ← unwrapM r
        pure ((r, item.dot, item.origin), item)
      pure ((E.sorter.sort (·.1) keyed).map (·.2))
  pure { s with medial := medial }

/-- `remove_unreachable_sets` (recognizer.rs:255-300). -/
def removeUnreachable (s : Rec σ ν) : M (Rec σ ν) := do
  let last ← s.medial.last
  let newEarleme := match (last.map (·.origin)).max? with
    | some m => m
    | none => s.earleme
  if s.earleme > newEarleme ∧ newEarleme > 0 then do
    let medial ← s.medial.truncate (newEarleme + 1)
    let s := { s with predicted := s.predicted.truncate (newEarleme + 1), medial := medial }
    assertM (s.medial.len == newEarleme + 2)
    assertM (s.earleme == newEarleme)
    pure s
  else pure s

/-- `prediction_pass` (recognizer.rs:303-316). -/
def predictionPass (s : Rec σ ν) : M (Rec σ ν) := do
  let grown := s.predicted.grow 1 false
  let last ← s.medial.last
  let i ← succM s.earleme
  let row ← grown.row i
  let row ← last.foldlM (fun row ei => do
    let r ← E.g.getRhs1 ei.dot
    let postdot ← unwrapM r
    let src ← E.g.predictionRow postdot
    predictRow row postdot src) row
  pure { s with predicted := { grown with rows := grown.rows.set i row } }

/-- `advance_after_completion` (recognizer.rs:192-202). -/
def advanceAfterCompletion (s : Rec σ ν) : M (Rec σ ν) := do
  let s ← sortMedial E s
  let s ← removeUnreachable s
  if E.leo then panicM .todo else predictionPass E s

/-- `end_earleme` (recognizer.rs:167-187); `ca` is the completion pass, see `endEarleme`. -/
def endEarlemeWith (ca : Rec σ ν → M (Rec σ ν)) (s : Rec σ ν) : M (Rec σ ν × Bool) := do
  if ← s.isExhausted then pure (s, false)
  else do
    let s ← ca s
    let s ← advanceAfterCompletion E s
    pure (s, true)

/-- `end_earleme` (recognizer.rs:167-187). -/
def endEarleme (s : Rec σ ν) : M (Rec σ ν × Bool) := endEarlemeWith E (completeAll E) s

/-- `reset` (recognizer.rs:319-330). -/
def reset (s : Rec σ ν) : M (Rec σ ν) := do
  let row ← s.predicted.row 0
  let src ← E.g.predictionRow E.g.startSym
  let row' ← predictRow (clearRow row) E.g.startSym src
  pure { s with medial := s.medial.clear, complete := [],
                predicted := { s.predicted with rows := s.predicted.rows.set 0 row' } }

/-- `finished_node` (recognizer.rs:346-358). -/
def finishedNode (s : Rec σ ν) : M (Option ν) :=
  if E.g.hasTrivialDerivation && s.earleme == maxUsize then do
    let sym ← E.g.externalizedStartSym
    let n ← E.F.nulling s.forest sym
    pure (some n)
  else do
    let last ← s.medial.last
    match last.head? with
    | some item => pure (if item.dot = E.g.dotBeforeEof then some item.node else none)
    | none => pure none

/-- `is_finished` (recognizer.rs:336-338). -/
def isFinished (s : Rec σ ν) : M Bool := do
  let n ← finishedNode E s
  pure n.isSome

/-- `predicted_symbols` (recognizer.rs:363-369), collected. -/
def predictedSymbols (s : Rec σ ν) : M (List Nat) := do
  let row ← s.predicted.row s.earleme
  pure ((row.zipIdx.filter fun p => p.1).map fun p => p.2)

/-- `medial_items` (recognizer.rs:372-374), collected. -/
def medialItems (s : Rec σ ν) : M (List (Item ν)) := s.medial.index s.earleme

/-- `trace` (event.rs:13-21), collected. -/
def trace (s : Rec σ ν) : M (List ((Nat × Nat) × Nat)) := do
  let (tracePredict, trace0, _) := E.g.trace
  let syms ← s.predictedSymbols
  let a ← syms.mapM fun sym => do
    let t ← indexM tracePredict sym
    pure (t, s.earleme)
  let items ← s.medialItems
  let b ← items.mapM fun item => do
    let t ← indexM trace0 item.dot
    pure (t, item.origin)
  pure (a ++ b)

/-- `events` (event.rs:23-31), collected. -/
def events (s : Rec σ ν) : M (List (Nat × Nat)) := do
  let (eventsPredict, eventsFlat) := E.g.events
  let syms ← s.predictedSymbols
  let a ← syms.mapM fun sym => indexM eventsPredict sym
  let items ← s.medialItems
  let b ← items.mapM fun item => indexM eventsFlat item.dot
  pure (a ++ b)

/-- `minimal_distances` (event.rs:33-35), collected. -/
def minimalDistances (s : Rec σ ν) : M (List Nat) := do
  let ev ← events E s
  pure (ev.map (·.2))

/-- `expected_terminals` (event.rs:37-41), collected. -/
def expectedTerminals (s : Rec σ ν) : M (List Nat) := do
  let items ← s.medialItems
  items.mapM fun item => do
    let r ← E.g.getRhs1 item.dot
    unwrapM r

end Rec
end Gearley
