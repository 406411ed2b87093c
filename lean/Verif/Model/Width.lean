import Verif.Model.Machine

/-!
# The recognizer for a `usize` of any width

`Model/Recognizer.lean` has a `usize` of 64 bits. The target wasm32 of gearley-wasm has 32. The width matters where `earleme`
(recognizer.rs:379-381) wraps around, before the first position, and where its result is compared with `!0` or counted up. Here are
these functions with the width `W`, and what calls them. `scan` is as in `Model/Machine.lean`, with origins of 32 bits. The
completion pass `ca` does not call any of them.
-/

namespace Gearley

/-- `!0usize`. -/
def maxOf (W : Nat) : Nat := 2 ^ W - 1

/-- `a + 1` on `usize` in a debug build. -/
def succOf (W a : Nat) : M Nat := if a < maxOf W then pure (a + 1) else panicM .overflow

namespace Rec
variable {σ ν : Type} (W : Nat) (E : Env σ ν)

/-- `earleme` (recognizer.rs:379-381): `self.medial.len().wrapping_sub(2)`. -/
def earlemeOf (s : Rec σ ν) : Nat := if 2 ≤ s.medial.len then s.medial.len - 2 else 2 ^ W + s.medial.len - 2

/-- `scan` (recognizer.rs:144-158). -/
def scanOf (s : Rec σ ν) (symbol value : Nat) : M (Rec σ ν) := do
  assertM (s.earlemeOf W != maxOf W)
  let earleme := s.earlemeOf W % 2 ^ 32
  let pos ← succU32 earleme
  let (forest, node) ← E.F.leaf s.forest symbol pos value
  completeSym E { s with forest := forest } earleme symbol node

/-- `remove_unreachable_sets` (recognizer.rs:255-300). -/
def removeUnreachableOf (s : Rec σ ν) : M (Rec σ ν) := do
  let last ← s.medial.last
  let newEarleme := match (last.map (·.origin)).max? with
    | some m => m
    | none => s.earlemeOf W
  if s.earlemeOf W > newEarleme ∧ newEarleme > 0 then do
    let medial ← s.medial.truncate (newEarleme + 1)
    let s := { s with predicted := s.predicted.truncate (newEarleme + 1), medial := medial }
    assertM (s.medial.len == newEarleme + 2)
    assertM (s.earlemeOf W == newEarleme)
    pure s
  else pure s

/-- `prediction_pass` (recognizer.rs:303-316). -/
def predictionPassOf (s : Rec σ ν) : M (Rec σ ν) := do
  let grown := s.predicted.grow 1 false
  let last ← s.medial.last
  let i ← succOf W (s.earlemeOf W)
  let row ← grown.row i
  let row ← last.foldlM (fun row ei => do
    let r ← E.g.getRhs1 ei.dot
    let postdot ← unwrapM r
    let src ← E.g.predictionRow postdot
    predictRow row postdot src) row
  pure { s with predicted := { grown with rows := grown.rows.set i row } }

/-- `advance_after_completion` (recognizer.rs:192-202). -/
def advanceAfterCompletionOf (s : Rec σ ν) : M (Rec σ ν) := do
  let s ← sortMedial E s
  let s ← removeUnreachableOf W s
  if E.leo then panicM .todo else predictionPassOf W E s

/-- `end_earleme` (recognizer.rs:167-187). -/
def endEarlemeOf (ca : Rec σ ν → M (Rec σ ν)) (s : Rec σ ν) : M (Rec σ ν × Bool) := do
  if ← s.isExhausted then pure (s, false)
  else do
    let s ← ca s
    let s ← advanceAfterCompletionOf W E s
    pure (s, true)

/-- `finished_node` (recognizer.rs:346-358). -/
def finishedNodeOf (s : Rec σ ν) : M (Option ν) :=
  if E.g.hasTrivialDerivation && s.earlemeOf W == maxOf W then do
    let sym ← E.g.externalizedStartSym
    let n ← E.F.nulling s.forest sym
    pure (some n)
  else do
    let last ← s.medial.last
    match last.head? with
    | some item => pure (if item.dot = E.g.dotBeforeEof then some item.node else none)
    | none => pure none

/-- `is_finished` (recognizer.rs:336-338). -/
def isFinishedOf (s : Rec σ ν) : M Bool := do
  let n ← finishedNodeOf W E s
  pure n.isSome

/-- `predicted_symbols` (recognizer.rs:363-369), collected. -/
def predictedSymbolsOf (s : Rec σ ν) : M (List Nat) := do
  let row ← s.predicted.row (s.earlemeOf W)
  pure ((row.zipIdx.filter fun p => p.1).map fun p => p.2)

/-- `medial_items` (recognizer.rs:372-374), collected. -/
def medialItemsOf (s : Rec σ ν) : M (List (Item ν)) := s.medial.index (s.earlemeOf W)

/-- `trace` (event.rs:13-21), collected. -/
def traceOf (s : Rec σ ν) : M (List ((Nat × Nat) × Nat)) := do
  let (tracePredict, trace0, _) := E.g.trace
  let syms ← s.predictedSymbolsOf W
  let a ← syms.mapM fun sym => do
    let t ← indexM tracePredict sym
    pure (t, s.earlemeOf W)
  let items ← s.medialItemsOf W
  let b ← items.mapM fun item => do
    let t ← indexM trace0 item.dot
    pure (t, item.origin)
  pure (a ++ b)

/-- `events` (event.rs:23-31), collected. -/
def eventsOf (s : Rec σ ν) : M (List (Nat × Nat)) := do
  let (eventsPredict, eventsFlat) := E.g.events
  let syms ← s.predictedSymbolsOf W
  let a ← syms.mapM fun sym => indexM eventsPredict sym
  let items ← s.medialItemsOf W
  let b ← items.mapM fun item => indexM eventsFlat item.dot
  pure (a ++ b)

/-- `expected_terminals` (event.rs:37-41), collected. -/
def expectedTerminalsOf (s : Rec σ ν) : M (List Nat) := do
  let items ← s.medialItemsOf W
  items.mapM fun item => do
    let r ← E.g.getRhs1 item.dot
    unwrapM r

/-- One call of the public interface, as `callWith`. -/
def callOf (ca : Rec σ ν → M (Rec σ ν)) (s : Rec σ ν) : Call → M (Rec σ ν × Obs)
  | .scan sym value => do
    let s ← scanOf W E s sym value
    pure (s, .unit)
  | .endEarleme => do
    let (s, ok) ← endEarlemeOf W E ca s
    pure (s, .bool ok)
  | .isFinished => do
    let b ← isFinishedOf W E s
    pure (s, .bool b)
  | .earleme => pure (s, .num (s.earlemeOf W))
  | .predictedSymbols => do
    let l ← s.predictedSymbolsOf W
    pure (s, .nums l)
  | .medialItems => do
    let l ← s.medialItemsOf W
    pure (s, .pairs (l.map fun it => (it.dot, it.origin)))
  | .trace => do
    let l ← traceOf W E s
    pure (s, .traces l)
  | .events => do
    let l ← eventsOf W E s
    pure (s, .pairs l)
  | .expectedTerminals => do
    let l ← expectedTerminalsOf W E s
    pure (s, .nums l)
  | c => callWith E ca s c

/-- A sequence of calls with all observations. -/
def callsOf (ca : Rec σ ν → M (Rec σ ν)) : List Call → Rec σ ν → M (Rec σ ν × List Obs)
  | [], s => pure (s, [])
  | c :: rest, s => do
    let (s, o) ← callOf W E ca s c
    let (s, os) ← callsOf ca rest s
    pure (s, o :: os)

/-- The loop of `parse` (parse.rs:77-97) and its result (parse.rs:104). -/
def parseLoopOf (ca : Rec σ ν → M (Rec σ ν)) : Nat → List Nat → Rec σ ν → M (Rec σ ν × Except ParseError Bool)
  | _, [], s => do
    let b ← isFinishedOf W E s
    pure (s, .ok b)
  | i, token :: rest, s => do
    let s := s.beginEarleme
    let s ← (match rest with
      | t :: _ => do
        let h ← internal E t
        pure (s.setHint h)
      | [] => pure s.clearHint)
    let x ← internal E token
    let s ← scanOf W E s x (i % 2 ^ 32)
    let (s, ok) ← endEarlemeOf W E ca s
    if ok then parseLoopOf ca (i + 1) rest s else pure (s, .error (.parse [token] i))

/-- Reading the start marker (parse.rs:68-76, 147-155). -/
def readSofOf (ca : Rec σ ν → M (Rec σ ν)) (s : Rec σ ν) : M (Rec σ ν × Bool) := do
  let s ← scanOf W E s.beginEarleme E.g.sofSym 0
  endEarlemeOf W E ca s

/-- `parse` (parse.rs:67-105). -/
def parseOf (ca : Rec σ ν → M (Rec σ ν)) (s : Rec σ ν) (tokens : List Nat) : M (Rec σ ν × Except ParseError Bool) := do
  let (s, ok) ← readSofOf W E ca s
  if ok then parseLoopOf W E ca 0 tokens s else pure (s, .error (.parse [E.g.sofSym] 0))

/-- `parse_terminal_list` (parse.rs:109-137); `f` is the new forest. -/
def parseTerminalListOf (ca : Rec σ ν → M (Rec σ ν)) (f : σ) (nameMap : List Char → Option Nat) (words : List (List Char)) :
    M (Except ParseError Bool) := do
  let s ← new E f
  match tokenizeWords nameMap words with
  | .error e => pure (.error e)
  | .ok tokens => do
    let (s, result) ← parseOf W E ca s tokens
    match ← finishedNodeOf W E s with
    | some _ => pure result
    | none => pure (.error .finish)

/-- The inner loop of `parse_tokenizing` (parse.rs:158-163). -/
def scanCharOf (terminals : List Nat) (ch : Nat) (s : Rec σ ν) : M (Rec σ ν) :=
  terminals.foldlM (fun s t => do
    let x ← internal E t
    scanOf W E s x ch) s

/-- The loop of `parse_tokenizing` (parse.rs:156-171). -/
def charLoopOf (ca : Rec σ ν → M (Rec σ ν)) (lexer : Nat → List Nat) :
    Nat → List Nat → Rec σ ν → M (Rec σ ν × Option ParseError)
  | _, [], s => pure (s, none)
  | i, ch :: rest, s => do
    let s ← scanCharOf W E (lexer ch) ch s.beginEarleme
    let (s, ok) ← endEarlemeOf W E ca s
    if ok then charLoopOf ca lexer (i + 1) rest s else pure (s, some (.parse (lexer ch) i))

/-- `parse_tokenizing` (parse.rs:139-185). -/
def parseTokenizingOf (ca : Rec σ ν → M (Rec σ ν)) (f : σ) (lexer : Nat → List Nat) (input : List Nat) :
    M (Except ParseError Bool) := do
  let s ← new E f
  let (s, ok) ← readSofOf W E ca s
  if ok then do
    let (s, err) ← charLoopOf W E ca lexer 0 input s
    match err with
    | some e => pure (.error e)
    | none => do
      let result ← isFinishedOf W E s
      match ← finishedNodeOf W E s with
      | some _ => pure (.ok result)
      | none => pure (.error .finish)
  else pure (.error (.parse [E.g.sofSym] 0))

end Rec
end Gearley
