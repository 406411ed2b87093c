import Verif.Model.Grammar
import Verif.Spec.Grammar

/-!
# Specification: processed grammars

What the external crate `cfg` is expected to hand over (the state of `grammar` after line 127 of `from_grammar`). Only
the data types `Cfg`, `CfgRule` of the model are used; all conditions are about rule lists.
-/

namespace Gearley.Spec
open Gearley

/-- A rule with its history removed. Right-hand sides are never empty in a processed grammar. -/
def ruleOf (r : CfgRule) : Rule := ⟨r.lhs, r.rhs.headD 0, r.rhs[1]?⟩

/-- The rules of a processed grammar. -/
def rulesOf (c : Cfg) : Rules := c.rules.map ruleOf

/-- The classification of generated symbols: left-hand side of exactly one two-symbol rule, first symbol of exactly one
two-symbol rule (rules of the shape `A ::= A b` are not counted), never a later symbol, and left-hand side of some rule
without external origin. -/
def Generated (c : Cfg) (A : Nat) : Prop :=
  (c.rules.countP fun r => r.rhs.length = 2 ∧ r.rhs[0]? ≠ some r.lhs ∧ r.lhs = A) = 1 ∧
  (c.rules.countP fun r => r.rhs.length = 2 ∧ r.rhs[0]? ≠ some r.lhs ∧ r.rhs[0]? = some A) = 1 ∧
  (∀ r ∈ c.rules, A ∉ r.rhs.drop 1) ∧
  ∃ r ∈ c.rules, r.lhs = A ∧ r.origin = none

instance (c : Cfg) (A : Nat) : Decidable (Generated c A) := by unfold Generated; infer_instance

/-- What is recorded for the prediction of `A`: the start of the last rule for `A`, or nothing if there is no rule. -/
def StartDot (rules : List CfgRule) (A : Nat) (d : EarleyDot) : Prop :=
  (∃ pre r post, rules = pre ++ r :: post ∧ r.lhs = A ∧ (∀ q ∈ post, q.lhs ≠ A) ∧ r.dots[0]? = some d) ∨
    ((∀ r ∈ rules, r.lhs ≠ A) ∧ d = ⟨(0, 0), (0, 0)⟩)

/-- Processed grammars: one or two symbols per right-hand side, sorted by left-hand side, generated symbols numbered
`syms ..`, and wrapped: `start ::= g0 eof` is the only rule with `start` or `eof`, and `eof` is the smallest second
symbol. `depth` witnesses that generated symbols are not nested in a cycle. -/
structure ProcessedOK (c : Cfg) (syms : Nat) (w : WrappedRoot) (depth : Nat → Nat) : Prop where
  len : ∀ r ∈ c.rules, r.rhs.length = 1 ∨ r.rhs.length = 2
  lhs_lt : ∀ r ∈ c.rules, r.lhs < c.numSyms
  rhs_lt : ∀ r ∈ c.rules, ∀ s ∈ r.rhs, s < c.numSyms
  sorted : c.rules.Pairwise fun a b => a.lhs ≤ b.lhs
  syms_le : syms ≤ c.numSyms
  /-- generated symbols are numbered after the ordinary ones (`remap_symbols`) -/
  gen : ∀ A, A < c.numSyms → (Generated c A ↔ syms ≤ A)
  /-- the rules that start with a generated symbol have the same left-hand side; at most one of them has one symbol -/
  genLhs : ∀ r₁ ∈ c.rules, ∀ r₂ ∈ c.rules, r₁.rhs[0]? = r₂.rhs[0]? → (∀ A ∈ r₁.rhs[0]?, syms ≤ A) → r₁.lhs = r₂.lhs
  genUnary : ∀ A, syms ≤ A → A < c.numSyms → (c.rules.countP fun r => r.rhs = [A]) ≤ 1
  depth : ∀ r ∈ c.rules, ∀ A ∈ r.rhs[0]?, syms ≤ A → depth r.lhs < depth A
  /-- the history of every rule covers its dots -/
  dots : ∀ r ∈ c.rules, 3 ≤ r.dots.length
  numRoots : c.numRoots = 1
  root : c.wrappedRoots.head? = some w
  start_lt : w.root < syms
  eof_lt : w.eof < syms
  startRule : ∃ r ∈ c.rules, r.lhs = w.root ∧ r.rhs[1]? = some w.eof
  eofOnce : (c.rules.countP fun r => r.rhs[1]? = some w.eof) = 1
  eofNot0 : ∀ r ∈ c.rules, r.rhs[0]? ≠ some w.eof
  eofTerm : ∀ r ∈ c.rules, r.lhs ≠ w.eof
  eofMin : ∀ r ∈ c.rules, ∀ s ∈ r.rhs[1]?, w.eof ≤ s
  startNot : ∀ r ∈ c.rules, w.root ∉ r.rhs

/-- `sets` (as produced by `predict_sets()` of crate `cfg`) contain, for every symbol below `syms`, at least the FIRST
terminals other than the symbol itself. -/
def FirstSetsOK (R : Rules) (syms : Nat) (sets : List (Nat × List Nat)) : Prop :=
  ∀ C t u, C < syms → t < syms → Terminal R t → t ≠ C → Derives R C (t :: u) → ∃ p ∈ sets, p.1 = C ∧ t ∈ p.2

/-- `sets` contain, for every symbol below `syms`, at least the FOLLOW terminals. -/
def FollowSetsOK (R : Rules) (syms start : Nat) (sets : List (Nat × List Nat)) : Prop :=
  ∀ A t α β, A < syms → t < syms → Terminal R t → Derives R start (α ++ A :: t :: β) → ∃ p ∈ sets, p.1 = A ∧ t ∈ p.2

end Gearley.Spec
