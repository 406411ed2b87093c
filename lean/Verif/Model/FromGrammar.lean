import Verif.Model.Remap

/-!
# The second half of `from_grammar` (gearley-default-grammar/src/lib.rs:94-230)

`from_grammar` hands the grammar to crate `cfg` for `make_proper`, `wrap_input` and
`binarize_and_eliminate_nulling_rules` (lines 95-99). What follows is modelled here: renumbering of the symbols, sorting of
the rules, construction of the tables. The parts of it that belong to crate `cfg` are the fields of `CfgCrate`.
Lines 128-148 build a first set of tables that serves tracing only (`traceTables`); the traces themselves are not modelled.
-/

namespace Gearley

/-- Functions of crate `cfg` that are used after binarization. -/
structure CfgCrate where
  /-- `Remap::reorder_symbols` with a comparison, for a grammar with so many symbols: the symbols in their new order -/
  reorder : (Nat → Nat → M Ordering) → Nat → M (List Nat)
  /-- `Remap::remove_unused_symbols`: which symbols stay -/
  used : Cfg → Nat → Bool
  /-- `Cfg::sort_by` with the comparison of left-hand sides (lib.rs:283-285) -/
  sortRules : List CfgRule → List CfgRule
  /-- `FirstSets` -/
  firstSets : Cfg → List (Nat × List Nat)
  /-- `FollowSets` -/
  followSets : Cfg → List (Nat × List Nat)

namespace Build

/-- The new number of a symbol, where `ext` lists the symbols in their new order. -/
def newNumber (ext : List Nat) (sym : Nat) : Nat := ext.idxOf sym

/-- A rule with new symbol numbers. -/
def renumberRule (ext : List Nat) (r : CfgRule) : CfgRule :=
  { r with lhs := newNumber ext r.lhs, rhs := r.rhs.map (newNumber ext), nullable := r.nullable.map fun p => (newNumber ext p.1, p.2) }

/-- A wrapped root with new symbol numbers. -/
def renumberRoot (ext : List Nat) (w : WrappedRoot) : WrappedRoot :=
  ⟨newNumber ext w.root, newNumber ext w.sof, newNumber ext w.eof, newNumber ext w.innerRoot⟩

/-- The grammar with new symbol numbers. -/
def renumber (ext : List Nat) (c : Cfg) : Cfg :=
  { c with numSyms := ext.length, rules := c.rules.map (renumberRule ext), wrappedRoots := c.wrappedRoots.map (renumberRoot ext) }

/-- `Remap::get_mapping`: from old to new numbers and back. -/
def mappingOf (ext : List Nat) (numSyms : Nat) : Mapping where
  toInternal := (List.range numSyms).map fun s => if s ∈ ext then some (newNumber ext s) else none
  toExternal := ext

/-- `remap_symbols` (lib.rs:232-281). -/
def remapSymbols (X : CfgCrate) (c : Cfg) : M (Cfg × Mapping) := do
  let order ← symbolOrder c
  let syms ← X.reorder (compareSyms order) c.numSyms
  let ext := syms.filter (X.used c)
  pure (renumber ext c, mappingOf ext c.numSyms)

/-- `sort_rules_by_lhs` (lib.rs:283-285). -/
def sortRulesByLhs (X : CfgCrate) (c : Cfg) : Cfg := { c with rules := X.sortRules c.rules }

/-- The tables `has_predicts` (lib.rs:128-143), which are built for tracing and then dropped. -/
def traceTables (c : Cfg) : M Unit := do
  let gensyms ← numGensyms c
  let syms ← subM c.numSyms gensyms
  let byRhs0 ← rulesByRhs0 c
  let _ ← predictionMatrix (rootOf byRhs0 syms) syms c
  pure ()

/-- `from_grammar` (lib.rs:94-230) from line 110 on. `nulling` is the grammar of empty derivations that was split off. -/
def fromBinarized (X : CfgCrate) (c nulling : Cfg) : M DefaultGrammar := do
  let (c, maps) ← remapSymbols X c
  let c := sortRulesByLhs X c
  traceTables c
  fromProcessed c maps nulling (X.firstSets c) (X.followSets c)

end Build
end Gearley
