import Verif.Model.BitMatrix
import Verif.Model.BinarySearch
import Verif.Model.Vec2d
import Verif.Model.Sort

/-!
# Model of `gearley-default-grammar/src/lib.rs`

The input is the *processed* grammar, i.e. the state of `grammar` after line 127 of `from_grammar` (made proper,
wrapped, binarized, nulling rules eliminated, remapped, sorted). These transformations belong to the external crate
`cfg`. Symbols are numbers.
-/

namespace Gearley

/-- What a rule's history records at one dot position (`cfg::history::earley`): the event with its minimal distance, and
the external dotted rule. -/
structure EarleyDot where
  event : Nat × Nat
  trace : Nat × Nat
  deriving DecidableEq, Repr

/-- A rule of the processed grammar: `CfgRule` of crate `cfg` with the history fields that are used.
`origin = none` is a null external origin; `nullable` is the eliminated nulling symbol with its side (`true` = right, as
the bocages use it). -/
structure CfgRule where
  lhs : Nat
  rhs : List Nat
  origin : Option Nat := none
  nullable : Option (Nat × Bool) := none
  dots : List EarleyDot := []
  deriving DecidableEq, Repr

/-- `cfg::WrappedRoot`. -/
structure WrappedRoot where
  root : Nat
  sof : Nat
  eof : Nat
  innerRoot : Nat
  deriving DecidableEq, Repr

/-- The processed grammar: `Cfg` of crate `cfg`. -/
structure Cfg where
  numSyms : Nat
  rules : List CfgRule
  wrappedRoots : List WrappedRoot
  numRoots : Nat := 1
  deriving DecidableEq, Repr

/-- `cfg_symbol::intern::Mapping`. -/
structure Mapping where
  toInternal : List (Option Nat) := []
  toExternal : List Nat := []
  deriving DecidableEq, Repr

/-- `PredictionTransition` (gearley-grammar/src/lib.rs:13-17). -/
structure PT where
  symbol : Nat
  dot : Nat
  isUnary : Bool
  deriving DecidableEq, Repr

/-- `Column` (gearley-default-grammar/src/lib.rs:25-29). -/
structure Column where
  syms : List (Option Nat) := []
  events : List (Nat × Nat) := []
  tracing : List (Nat × Nat) := []
  deriving DecidableEq, Repr

/-- `ForestInfo` (gearley-grammar/src/lib.rs:192-200). -/
structure ForestInfo where
  eval : List (Option Nat) := []
  nullingIntermediate : List (Nat × Nat × Nat) := []
  nullingEliminated : List (Option (Nat × Bool)) := []
  sof : Nat := 0
  eof : Nat := 0
  start : Nat := 0
  deriving DecidableEq, Repr

/-- `DefaultGrammar` (lib.rs:45-72) without the unused `scan_prediction_matrix`. -/
structure DefaultGrammar where
  startSym : Nat := 0
  originalStartSym : Nat := 0
  hasTrivialDerivation : Bool := false
  sofSym : Nat := 0
  eofSym : Nat := 0
  dotBeforeEof : Nat := 0
  syms : Nat := 0
  gensyms : Nat := 0
  numRules : Nat := 0
  predictionMatrix : BitMatrix := ⟨0, []⟩
  completionTable : Vec2d PT := Vec2d.new
  genCompletions : List (Option PT × Option PT) := []
  lrSets : BitMatrix := ⟨0, []⟩
  column0 : Column := {}
  column1 : Column := {}
  column2 : Column := {}
  symMaps : Mapping := {}
  forestInfo : ForestInfo := {}
  deriving DecidableEq, Repr

/-! ### Construction -/

namespace Build

/-- First loop of `find_gensyms` for one rule (lib.rs:291-299). -/
def countRule (occ : List (Nat × Nat × Nat)) (rule : CfgRule) : M (List (Nat × Nat × Nat)) := do
  let occ ← (if rule.rhs.length = 2 then do
      let r0 ← indexM rule.rhs 0
      if rule.lhs ≠ r0 then do
        let a ← indexM occ rule.lhs
        let occ ← setM occ rule.lhs (a.1 + 1, a.2.1, a.2.2)
        let b ← indexM occ r0
        setM occ r0 (b.1, b.2.1 + 1, b.2.2)
      else pure occ
    else pure occ)
  (rule.rhs.drop 1).foldlM (fun occ sym => do
    let a ← indexM occ sym
    setM occ sym (a.1, a.2.1, a.2.2 + 1)) occ

/-- `find_gensyms` (lib.rs:287-306): the bit set as a list of Booleans. -/
def findGensyms (c : Cfg) : M (List Bool) := do
  let occ ← c.rules.foldlM countRule (List.replicate c.numSyms (0, 0, 0))
  c.rules.foldlM (fun gens rule => do
    let a ← indexM occ rule.lhs
    if a = (1, 1, 0) ∧ rule.origin = none then setM gens rule.lhs true else pure gens)
    (List.replicate c.numSyms false)

/-- `num_gensyms` as computed at lib.rs:319-324 (and 130-135). -/
def numGensyms (c : Cfg) : M Nat := do
  let gens ← findGensyms c
  pure (gens.countP id)

/-- The key `rule.rhs[0]` used for sorting and searching; indexing panics on an empty right-hand side. -/
def rhs0 (rule : CfgRule) : M Nat := indexM rule.rhs 0

/-- `compute_rules_by_rhs0` (lib.rs:427-431): stable sort by the first right-hand symbol. -/
def rulesByRhs0 (c : Cfg) : M (List CfgRule) := do
  let keyed ← c.rules.mapM fun r => do
    let k ← rhs0 r
    pure (k, r)
  pure ((sortByKey (·.1) keyed).map (·.2))

/-- One round of `while lhs >= self.size.syms` (lib.rs:444-456 and 538-543). -/
def rootStep (byRhs0 : List CfgRule) (syms : Nat) (lhs : Nat) : M (Nat ⊕ Nat) :=
  if lhs ≥ syms then do
    match ← bsearchBy byRhs0 (fun elem => do
      let k ← rhs0 elem
      pure (compare k lhs)) with
    | .ok idx => do
      let r ← indexM byRhs0 idx
      pure (.inl r.lhs)
    | .error _ => panicM .unwrap
  else pure (.inr lhs)

/-- The loop `while lhs >= self.size.syms` (lib.rs:444-456 and 538-543): climbs from a generated symbol to the
ordinary symbol whose rules it was split from. -/
def rootOf (byRhs0 : List CfgRule) (syms : Nat) (lhs : Nat) : M Nat := loop (rootStep byRhs0 syms) lhs

/-- `populate_prediction_matrix` (lib.rs:433-464). `root` is the climbing loop. -/
def predictionMatrix (root : Nat → M Nat) (syms : Nat) (c : Cfg) : M BitMatrix := do
  let m ← c.rules.foldlM (fun m rule => do
    let r0 ← rhs0 rule
    if r0 < syms then do
      let lhs ← root rule.lhs
      m.set lhs r0 true
    else pure m) (BitMatrix.new syms syms)
  pure m.transitiveClosure.reflexiveClosure

/-- Fill a matrix from `predict_sets()` of crate `cfg` (lib.rs:480-486, 489-495). -/
def fillSets (syms : Nat) (sets : List (Nat × List Nat)) : M BitMatrix :=
  sets.foldlM (fun m p => p.2.foldlM (fun m inner =>
    if p.1 < syms ∧ inner < syms then m.set p.1 inner true else pure m) m) (BitMatrix.new syms syms)

/-- `populate_lr_sets` (lib.rs:466-511). `first` and `follow` are the sets computed by crate `cfg`. -/
def lrSets (syms : Nat) (first follow : List (Nat × List Nat)) : M BitMatrix := do
  let firstM ← fillSets syms first
  let firstM := firstM.reflexiveClosure
  let followM ← fillSets syms follow
  (List.range syms).foldlM (fun m i => do
    let a ← firstM.row i
    let rows ← setM m.rows (i * 2) a
    let b ← followM.row i
    let rows ← setM rows (i * 2 + 1) b
    pure { m with rows := rows }) (BitMatrix.new (syms * 2) syms)

/-- The transition recorded for a rule (lib.rs:535-562), with its first right-hand symbol. -/
def transition (root : Nat → M Nat) (rule : CfgRule) (dot : Nat) : M (Nat × PT) := do
  let r0 ← rhs0 rule
  let lhs ← root rule.lhs
  pure (r0, ⟨lhs, dot, rule.rhs[1]?.isNone⟩)

/-- Recording one transition in the tables (lib.rs:566-571). -/
def recordTransition (syms : Nat) (t : List (List PT) × List (Option PT × Option PT)) (p : Nat × PT) :
    M (List (List PT) × List (Option PT × Option PT)) :=
  if p.1 ≥ syms then do
    let e ← indexM t.2 (p.1 - syms)
    let gen ← setM t.2 (p.1 - syms) (if p.2.isUnary then (e.1, some p.2) else (some p.2, e.2))
    pure (t.1, gen)
  else do
    let l ← indexM t.1 p.1
    let comp ← setM t.1 p.1 (l ++ [p.2])
    pure (comp, t.2)

/-- `compute_completion_table` (lib.rs:521-574). -/
def completionTable (root : Nat → M Nat) (syms gensyms : Nat) (c : Cfg) :
    M (List (List PT) × List (Option PT × Option PT)) := do
  let ts ← (c.rules.zipIdx).mapM fun p => transition root p.1 p.2
  let binary := ts.filter fun p => !p.2.isUnary
  let unary := ts.filter fun p => p.2.isUnary
  (binary ++ unary).foldlM (recordTransition syms) (List.replicate syms [], List.replicate gensyms (none, none))

/-- `populate_prediction_events` (lib.rs:576-590); null events and traces are `(0, 0)`. -/
def predictionEvents (syms gensyms : Nat) (c : Cfg) : M (List (Nat × Nat) × List (Nat × Nat)) :=
  c.rules.foldlM (fun t rule =>
    match rule.dots[0]? with
    | some d => do
      let e ← setM t.1 rule.lhs d.event
      let tr ← setM t.2 rule.lhs d.trace
      pure (e, tr)
    | none => pure t)
    (List.replicate (syms + gensyms + 1) (0, 0), List.replicate (syms + gensyms + 1) (0, 0))

/-- `dot.earley.unwrap()` for one column (lib.rs:393-413). -/
def columnDots (c : Cfg) (col : Nat) : M (List EarleyDot) :=
  c.rules.mapM fun r => unwrapM r.dots[col]?

/-- `impl Grammar::to_internal` (lib.rs:736-742) on a mapping. -/
def toInternal (maps : Mapping) (sym : Nat) : M (Option Nat) :=
  if maps.toInternal = [] then pure (some sym) else indexM maps.toInternal sym

/-- The intermediate nulling rules of `populate_nulling` (lib.rs:594-607). -/
def nullingIntermediate (maps : Mapping) (nulling : Cfg) : M (List (Nat × Nat × Nat)) :=
  nulling.rules.foldlM (fun acc rule =>
    if rule.origin = none ∧ rule.rhs.length = 2 then do
      let a ← toInternal maps rule.lhs
      let a ← unwrapM a
      let r0 ← indexM rule.rhs 0
      let b ← toInternal maps r0
      let b ← unwrapM b
      let r1 ← indexM rule.rhs 1
      let c ← toInternal maps r1
      let c ← unwrapM c
      pure (acc ++ [(a, b, c)])
    else pure acc) []

end Build

open Build in
/-- `from_processed_grammars` (lib.rs:308-316) with everything it calls: `populate_sizes` (318-333), `populate_maps`
(415), `populate_start_sym` (343-361), `populate_grammar_with_lhs/rhs/history` (363-413), `populate_predictions`
(419-425), `populate_nulling` (592-611). `mkRoot` is `Build.rootOf`; it is a parameter only so that concrete grammars
can be computed with a fuelled loop. -/
def fromProcessedWith (mkRoot : List CfgRule → Nat → Nat → M Nat) (c : Cfg) (maps : Mapping) (nulling : Cfg)
    (first follow : List (Nat × List Nat)) : M DefaultGrammar := do
  let gensyms ← numGensyms c
  let syms ← subM c.numSyms gensyms
  assertM (c.numRoots == 1)
  let w ← unwrapM c.wrappedRoots.head?
  let dotBeforeEof ← unwrapM (c.rules.findIdx? fun r => r.rhs[1]? == some w.eof)
  let col1 ← columnDots c 1
  let col2 ← columnDots c 2
  let byRhs0 ← rulesByRhs0 c
  let pm ← predictionMatrix (mkRoot byRhs0 syms) syms c
  let pe ← predictionEvents syms gensyms c
  let ct ← completionTable (mkRoot byRhs0 syms) syms gensyms c
  let lr ← lrSets syms first follow
  let ni ← nullingIntermediate maps nulling
  pure {
    startSym := w.root, originalStartSym := w.innerRoot, hasTrivialDerivation := !nulling.rules.isEmpty,
    sofSym := w.sof, eofSym := w.eof, dotBeforeEof := dotBeforeEof, syms := syms, gensyms := gensyms,
    numRules := c.rules.length, predictionMatrix := pm,
    completionTable := Vec2d.extend Vec2d.new ct.1, genCompletions := ct.2, lrSets := lr,
    column0 := { syms := c.rules.map fun r => some r.lhs, events := pe.1, tracing := pe.2 },
    column1 := { syms := c.rules.map fun r => r.rhs[1]?, events := col1.map (·.event), tracing := col1.map (·.trace) },
    column2 := { syms := c.rules.map fun r => r.rhs[2]?, events := col2.map (·.event), tracing := col2.map (·.trace) },
    symMaps := maps,
    forestInfo := { eval := c.rules.map (·.origin), nullingIntermediate := ni,
                    nullingEliminated := c.rules.map (·.nullable), sof := w.sof, eof := w.eof, start := w.innerRoot } }

/-- `from_processed_grammars` (lib.rs:308-316). -/
def fromProcessed (c : Cfg) (maps : Mapping) (nulling : Cfg) (first follow : List (Nat × List Nat)) :
    M DefaultGrammar := fromProcessedWith Build.rootOf c maps nulling first follow

/-! ### `impl Grammar for DefaultGrammar` -/

namespace DefaultGrammar
variable (g : DefaultGrammar)

/-- `get_rhs1` (lib.rs:703-705). -/
def getRhs1 (dot : Nat) : M (Option Nat) := indexM g.column1.syms dot

/-- `get_lhs` (lib.rs:713-715). -/
def getLhs (dot : Nat) : M Nat := do
  let o ← indexM g.column0.syms dot
  unwrapM o

/-- `rhs1_or_lhs` (lib.rs:633-639). -/
def rhs1OrLhs (dot : Nat) : M Nat := do
  match ← g.getRhs1 dot with
  | some r => pure r
  | none => g.getLhs dot

/-- `lhs_lr_set` (lib.rs:625-627). -/
def lhsLrSet (lhs : Nat) : M (List Bool) := g.lrSets.row (lhs * 2 + 1)

/-- `lookahead_set` (lib.rs:629-631). -/
def lookaheadSet (dot : Nat) : M (List Bool) := do
  let s ← g.rhs1OrLhs dot
  let r ← g.getRhs1 dot
  g.lrSets.row (s * 2 + if r.isNone then 1 else 0)

/-- `prediction_row` (lib.rs:646-648). -/
def predictionRow (sym : Nat) : M (List Bool) := g.predictionMatrix.row sym

/-- `completions` (lib.rs:727-729). -/
def completions (sym : Nat) : M (List PT) := g.completionTable.index sym

/-- `gen_completion` (lib.rs:731-733): `(binary, unary)`. -/
def genCompletion (sym : Nat) : M (Option PT × Option PT) := do
  let i ← subM sym g.syms
  indexM g.genCompletions i

/-- `to_internal` (lib.rs:736-742). -/
def toInternal (sym : Nat) : M (Option Nat) := Build.toInternal g.symMaps sym

/-- `to_external` (lib.rs:745-751). -/
def toExternal (sym : Nat) : M Nat :=
  if g.symMaps.toExternal = [] then pure sym else indexM g.symMaps.toExternal sym

/-- `externalized_start_sym` (lib.rs:671-673). -/
def externalizedStartSym : M Nat := g.toExternal g.originalStartSym

/-- `nulling` (lib.rs:681-686). -/
def nulling (pos : Nat) : Option (Nat × Bool) := (g.forestInfo.nullingEliminated[pos]?).join

/-- `events` (lib.rs:689-691). -/
def events : List (Nat × Nat) × List (Nat × Nat) := (g.column1.events, g.column2.events)

/-- `trace` (lib.rs:694-700). -/
def trace : List (Nat × Nat) × List (Nat × Nat) × List (Nat × Nat) :=
  (g.column0.tracing, g.column1.tracing, g.column2.tracing)

/-- `external_origin` (lib.rs:718-720). -/
def externalOrigin (dot : Nat) : M (Option Nat) := unwrapM g.forestInfo.eval[dot]?

end DefaultGrammar
end Gearley
