import Verif.Model.Api
import Verif.Model.Drivers
import Verif.Model.FromGrammar

/-!
# The recognizer with logging

With feature `log` and the level `trace` the recognizer and `from_grammar` write what they do to the log. The text is computed
from the state, and some of these computations read tables and can panic. Here are the functions that contain such a computation,
with it, and all functions that use them. What the log contains is not modelled, only what is evaluated to write it. Printing itself
(`Debug` of numbers, items, rules and symbol names) does not panic and is left out, so functions whose traces print just that
are those of `Model/Recognizer.lean`.

`BitMatrix::sub_matrix(i..i + 1)` (external crate) takes a slice of the rows and panics if there is no row `i`.
-/

namespace Gearley
namespace Rec
variable {σ ν : Type} (E : Env σ ν)

/-- `begin_earleme` (recognizer.rs:118-140) with lines 123-130. -/
def beginEarlemeLogged (s : Rec σ ν) : M (Rec σ ν) := do
  let s := s.beginEarleme
  let _ ← s.predicted.row s.earleme
  pure s

/-- One item of the loop of `complete_medial_items` (recognizer.rs:476-497) with line 491. -/
def completeMedialItemLogged (rhsLink : ν) (s : Rec σ ν) (item : Item ν) : M (Rec σ ν) := do
  let useful ← medialUseful E s.lookahead item.dot
  if !useful then do
    let _ ← E.g.getLhs item.dot
    pure ()
  if !E.lookahead || useful then do
    let (forest, node) ← E.F.product s.forest item.node rhsLink
    let heap ← Heap.push s.complete { item with node := node }
    pure { s with forest := forest, complete := heap }
  else pure s

/-- `complete_medial_items` (recognizer.rs:452-498). -/
def completeMedialItemsLogged (s : Rec σ ν) (setId sym : Nat) (rhsLink : ν) : M (Rec σ ν) := do
  let set ← s.medial.index setId
  let items ← medialMatches E set sym
  items.foldlM (completeMedialItemLogged E rhsLink) s

/-- One transition of the first loop of `complete_predictions` (recognizer.rs:503-559) with lines 524-536. -/
def completePredictionLogged (setId : Nat) (rhsLink : ν) (p : Rec σ ν × Nat) (trans : PT) : M (Rec σ ν × Nat) := do
  let wasPredicted ← p.1.predicted.get setId trans.symbol
  let useful ← predictionUseful E p.1.lookahead trans.dot
  if wasPredicted && !useful then do
    let _ ← unwrapM p.1.lookahead
    let _ ← E.g.rhs1OrLhs trans.dot
    pure ()
  if wasPredicted && (!E.lookahead || useful) then
    pure ({ p.1 with medial := p.1.medial.pushItem ⟨trans.dot, setId, rhsLink⟩ },
      p.2 + if trans.isUnary then 0 else 1)
  else pure p

/-- `complete_predictions` (recognizer.rs:501-565). -/
def completePredictionsLogged (s : Rec σ ν) (setId sym : Nat) (rhsLink : ν) : M (Rec σ ν) := do
  let last ← s.medial.last
  let comps ← E.g.completions sym
  let (s, binary) ← comps.foldlM (completePredictionLogged E setId rhsLink) (s, last.length)
  let last ← s.medial.last
  let heap ← (last.drop binary).foldlM Heap.push s.complete
  let extra ← subM last.length binary
  let keep ← subM s.medial.itemCount extra
  pure { s with complete := heap, medial := s.medial.truncateChart keep }

/-- `complete` (recognizer.rs:415-449). -/
def completeSymLogged (s : Rec σ ν) (setId sym : Nat) (rhsLink : ν) : M (Rec σ ν) :=
  if sym ≥ E.g.syms then completeGenerated E s setId sym rhsLink
  else do
    let pred ← s.predicted.get setId sym
    if pred then
      if E.leo then panicM .todo
      else do
        let s ← completeMedialItemsLogged E s setId sym rhsLink
        completePredictionsLogged E s setId sym rhsLink
    else pure s

/-- `scan` (recognizer.rs:144-158). -/
def scanLogged (s : Rec σ ν) (symbol value : Nat) : M (Rec σ ν) := do
  assertM (s.earleme != maxUsize)
  let (forest, node) ← E.F.leaf s.forest symbol (s.earleme + 1) value
  completeSymLogged E { s with forest := forest } s.earleme symbol node

/-- `complete_sum` (recognizer.rs:717-721). -/
def completeSumLogged (s : Rec σ ν) (origin lhs : Nat) : M (Rec σ ν × ν) := do
  let (forest, node) ← E.F.sum s.forest lhs origin
  let s ← completeSymLogged E { s with forest := forest } origin lhs node
  pure (s, node)

/-- `complete_entire_sum` (recognizer.rs:677-685). -/
def completeEntireSumLogged (s : Rec σ ν) (origin lhs : Nat) : M (Rec σ ν) := do
  let forest ← E.F.beginSum s.forest
  let s := { s with forest := forest }
  let s ← summandLoop E origin lhs s.complete.length s
  let (s, _) ← completeSumLogged E s origin lhs
  pure s

/-- One round of `while let Some(completion) = self.next_sum()` (recognizer.rs:648-651). -/
def completeStepLogged (s : Rec σ ν) : M (Rec σ ν ⊕ Rec σ ν) := do
  match ← nextSum E s with
  | some (origin, lhs) => do
    let s ← completeEntireSumLogged E s origin lhs
    pure (.inl s)
  | none => pure (.inr s.clearHint)

/-- `complete_all_sums_entirely` (recognizer.rs:647-653). -/
def completeAllLogged (s : Rec σ ν) : M (Rec σ ν) := loop (completeStepLogged E) s

/-- `advance_after_completion` (recognizer.rs:192-202) with line 198. -/
def advanceAfterCompletionLogged (s : Rec σ ν) : M (Rec σ ν) := do
  let s ← sortMedial E s
  let s ← removeUnreachable s
  if E.leo then panicM .todo else do
    let _ ← s.medial.last
    predictionPass E s

/-- `end_earleme` (recognizer.rs:167-187) with lines 174-177 and 180-184. -/
def endEarlemeLogged (s : Rec σ ν) : M (Rec σ ν × Bool) := do
  if ← s.isExhausted then pure (s, false)
  else do
    let s ← completeAllLogged E s
    let _ ← s.medial.last
    let s ← advanceAfterCompletionLogged E s
    let _ ← s.predicted.row s.earleme
    pure (s, true)

/-- One call of the public interface, as `call`. -/
def callLogged (s : Rec σ ν) : Call → M (Rec σ ν × Obs)
  | .beginEarleme => do
    let s ← beginEarlemeLogged s
    pure (s, .unit)
  | .scan sym value => do
    let s ← scanLogged E s sym value
    pure (s, .unit)
  | .endEarleme => do
    let (s, ok) ← endEarlemeLogged E s
    pure (s, .bool ok)
  | c => call E s c

/-- A sequence of calls, as `calls`. -/
def callsLogged : List Call → Rec σ ν → M (Rec σ ν × List Obs)
  | [], s => pure (s, [])
  | c :: rest, s => do
    let (s, o) ← callLogged E s c
    let (s, os) ← callsLogged rest s
    pure (s, o :: os)

/-- One position, as `position`. -/
def positionLogged (s : Rec σ ν) (toks : List (Nat × Nat)) : M (Rec σ ν × Bool) := do
  let s ← beginEarlemeLogged s
  let s ← toks.foldlM (fun s t => scanLogged E s t.1 t.2) s
  endEarlemeLogged E s

/-- A session, as `session`. -/
def sessionLogged : List (HintOp × List (Nat × Nat)) → Rec σ ν → M (Rec σ ν × Bool)
  | [], s => pure (s, true)
  | (h, toks) :: rest, s => do
    let (s, ok) ← positionLogged E (applyHint s h) toks
    if ok then sessionLogged rest s else pure (s, false)

/-- The loop of `parse` (parse.rs:77-97), as `parseLoop`. -/
def parseLoopLogged : Nat → List Nat → Rec σ ν → M (Rec σ ν × Except ParseError Bool)
  | _, [], s => do
    let b ← isFinished E s
    pure (s, .ok b)
  | i, token :: rest, s => do
    let s ← beginEarlemeLogged s
    let s ← (match rest with
      | t :: _ => do
        let h ← internal E t
        pure (s.setHint h)
      | [] => pure s.clearHint)
    let x ← internal E token
    let s ← scanLogged E s x (i % 2 ^ 32)
    let (s, ok) ← endEarlemeLogged E s
    if ok then parseLoopLogged (i + 1) rest s else pure (s, .error (.parse [token] i))

/-- Reading the start marker, as `readSof`. -/
def readSofLogged (s : Rec σ ν) : M (Rec σ ν × Bool) := do
  let s ← beginEarlemeLogged s
  let s ← scanLogged E s E.g.sofSym 0
  endEarlemeLogged E s

/-- `parse` (parse.rs:67-105). -/
def parseLogged (s : Rec σ ν) (tokens : List Nat) : M (Rec σ ν × Except ParseError Bool) := do
  let (s, ok) ← readSofLogged E s
  if ok then parseLoopLogged E 0 tokens s else pure (s, .error (.parse [E.g.sofSym] 0))

/-- `parse_terminal_list` (parse.rs:109-137). -/
def parseTerminalListLogged (f : σ) (nameMap : List Char → Option Nat) (words : List (List Char)) :
    M (Except ParseError Bool) := do
  let s ← new E f
  match tokenizeWords nameMap words with
  | .error e => pure (.error e)
  | .ok tokens => do
    let (s, result) ← parseLogged E s tokens
    match ← finishedNode E s with
    | some _ => pure result
    | none => pure (.error .finish)

/-- The loop of `parse_tokenizing` (parse.rs:156-171), as `charLoop`. -/
def charLoopLogged (lexer : Nat → List Nat) : Nat → List Nat → Rec σ ν → M (Rec σ ν × Option ParseError)
  | _, [], s => pure (s, none)
  | i, ch :: rest, s => do
    let s ← beginEarlemeLogged s
    let s ← (lexer ch).foldlM (fun s t => do
      let x ← internal E t
      scanLogged E s x ch) s
    let (s, ok) ← endEarlemeLogged E s
    if ok then charLoopLogged lexer (i + 1) rest s else pure (s, some (.parse (lexer ch) i))

/-- `parse_tokenizing` (parse.rs:139-185). -/
def parseTokenizingLogged (f : σ) (lexer : Nat → List Nat) (input : List Nat) : M (Except ParseError Bool) := do
  let s ← new E f
  let (s, ok) ← readSofLogged E s
  if ok then do
    let (s, err) ← charLoopLogged E lexer 0 input s
    match err with
    | some e => pure (.error e)
    | none => do
      let result ← isFinished E s
      match ← finishedNode E s with
      | some _ => pure (.ok result)
      | none => pure (.error .finish)
  else pure (.error (.parse [E.g.sofSym] 0))

end Rec

namespace Build

/-- The closure `sym_and_name_to_sym_info` (lib.rs:166-215), as far as it reads tables: `m` is the prediction matrix of
`has_predicts`, `syms` is `grammar.num_syms() - num_gensyms`. -/
def symInfo (c : Cfg) (m : BitMatrix) (syms internal : Nat) : M Unit := do
  let _ ← c.rules.mapM fun r => (if r.lhs = internal then some <$> rhs0 r else pure none : M (Option Nat))
  let _ ← c.rules.mapM fun r => do
    let r0 ← rhs0 r
    if r0 = internal ∨ r.rhs[1]? = some internal then some <$> rhs0 r else pure none
  if internal < syms then do
    let _ ← m.row internal
    let _ ← (List.range syms).mapM fun sym => m.get sym internal
    pure ()

/-- The tables for tracing (lib.rs:128-143) and the traces (lib.rs:216-228). -/
def traceTablesLogged (c : Cfg) (maps : Mapping) : M Unit := do
  let gensyms ← numGensyms c
  let syms ← subM c.numSyms gensyms
  let byRhs0 ← rulesByRhs0 c
  let m ← predictionMatrix (rootOf byRhs0 syms) syms c
  let _ ← (List.range (min maps.toExternal.length syms)).mapM fun internal => symInfo c m syms internal
  pure ()

/-- `from_grammar` (lib.rs:94-230) from line 110 on, with logging. -/
def fromBinarizedLogged (X : CfgCrate) (c nulling : Cfg) : M DefaultGrammar := do
  let (c, maps) ← remapSymbols X c
  let c := sortRulesByLhs X c
  traceTablesLogged c maps
  fromProcessed c maps nulling (X.firstSets c) (X.followSets c)

end Build
end Gearley
