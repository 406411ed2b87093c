import Verif.Model.FromGrammar
import Verif.Spec.Setup

/-!
# Specification: binarized grammars, and what is expected of crate `cfg` after binarization
-/

namespace Gearley.Spec
open Gearley

/-- A wrapped and binarized grammar before its symbols are renumbered (the state of `grammar` after line 99 of
`from_grammar`). Compared to `ProcessedOK`, nothing is said about the order of rules, and of symbols only that in a
one-symbol rule with a generated and an ordinary symbol the ordinary one has the smaller number (symbols are generated after
the others were declared). -/
structure BinarizedOK (c : Cfg) (w : WrappedRoot) : Prop where
  len : ∀ r ∈ c.rules, r.rhs.length = 1 ∨ r.rhs.length = 2
  lhs_lt : ∀ r ∈ c.rules, r.lhs < c.numSyms
  rhs_lt : ∀ r ∈ c.rules, ∀ s ∈ r.rhs, s < c.numSyms
  fresh : ∀ r ∈ c.rules, ∀ s, r.rhs = [s] → (Generated c r.lhs → ¬ Generated c s → s < r.lhs) ∧
    (¬ Generated c r.lhs → Generated c s → r.lhs < s)
  genLhs : ∀ r₁ ∈ c.rules, ∀ r₂ ∈ c.rules, ∀ A, r₁.rhs[0]? = some A → r₂.rhs[0]? = some A → Generated c A → r₁.lhs = r₂.lhs
  genUnary : ∀ A, Generated c A → (c.rules.countP fun r => r.rhs = [A]) ≤ 1
  nested : ∃ depth : Nat → Nat, ∀ r ∈ c.rules, ∀ A, r.rhs[0]? = some A → Generated c A → depth r.lhs < depth A
  dots : ∀ r ∈ c.rules, 3 ≤ r.dots.length
  numRoots : c.numRoots = 1
  root : c.wrappedRoots = [w]
  startRule : ∃ r ∈ c.rules, r.lhs = w.root ∧ r.rhs[1]? = some w.eof
  eofOnce : (c.rules.countP fun r => r.rhs[1]? = some w.eof) = 1
  eofNot0 : ∀ r ∈ c.rules, r.rhs[0]? ≠ some w.eof
  eofTerm : ∀ r ∈ c.rules, r.lhs ≠ w.eof
  startNot : ∀ r ∈ c.rules, w.root ∉ r.rhs
  sofUsed : ∃ r ∈ c.rules, w.sof ∈ r.rhs
  sofTerm : ∀ r ∈ c.rules, r.lhs ≠ w.sof

/-- What is expected of crate `cfg`. Sorting by an antisymmetric comparison returns all symbols and leaves no neighbours in
the wrong order; symbols that occur in rules are kept; rules are sorted; FIRST and FOLLOW sets contain at least FIRST and
FOLLOW. -/
structure CrateOK (X : CfgCrate) : Prop where
  reorder : ∀ (cmp : Nat → Nat → M Ordering) n, (∀ a b, a < n → b < n → ∃ o, cmp a b = pure o) →
    (∀ a b, a < n → b < n → a ≠ b → (cmp a b = pure .lt ↔ cmp b a = pure .gt)) →
    ∃ l, X.reorder cmp n = pure l ∧ l.Perm (List.range n) ∧
      ∀ i a b, l[i]? = some a → l[i + 1]? = some b → cmp a b ≠ pure .gt
  used : ∀ c, ∀ r ∈ c.rules, X.used c r.lhs = true ∧ ∀ s ∈ r.rhs, X.used c s = true
  sortPerm : ∀ l, (X.sortRules l).Perm l
  sorted : ∀ l, (X.sortRules l).Pairwise fun a b => a.lhs ≤ b.lhs
  first : ∀ c, FirstSetsOK (rulesOf c) c.numSyms (X.firstSets c)
  follow : ∀ c, ∀ w ∈ c.wrappedRoots, FollowSetsOK (rulesOf c) c.numSyms w.root (X.followSets c)

/-- Rename the symbols of a rule. -/
def Rule.rename (f : Nat → Nat) (r : Rule) : Rule := ⟨f r.lhs, f r.rhs0, r.rhs1.map f⟩

end Gearley.Spec
