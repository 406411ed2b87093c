import Verif.Spec.Evaluate
import Verif.Spec.Processed

/-!
# Specification: the user's grammar

The user's grammar has rules with right-hand sides of any length, numbered in the order of their declaration. `UTreeOf` are
its derivation trees. The empty derivation of a symbol is a single leaf `empty`, since evaluators are asked for one value of
an empty symbol.

`Binarizes` says what left binarization and elimination of empty rules (crate `cfg`) make of the user's rules.
-/

namespace Gearley.Spec
open Gearley

/-- The user's rules: left-hand side and right-hand side. -/
abbrev URules := List (Nat × List Nat)

/-- The symbol derives the empty string. -/
inductive UNullable (U : URules) : Nat → Prop
  | rule {k A : Nat} {rhs : List Nat} : U[k]? = some (A, rhs) → (∀ s ∈ rhs, UNullable U s) → UNullable U A

/-- A token of the user's grammar: a symbol without rules. -/
def UTerminal (U : URules) (a : Nat) : Prop := ∀ r ∈ U, r.1 ≠ a

mutual
/-- The string of tokens `u` can be derived from the symbol. -/
inductive Yields (U : URules) : Nat → List Nat → Prop
  | token {a : Nat} : UTerminal U a → Yields U a [a]
  | rule {k A : Nat} {rhs u : List Nat} : U[k]? = some (A, rhs) → YieldsAll U rhs u → Yields U A u
/-- The string of tokens `u` can be derived from the string of symbols. -/
inductive YieldsAll (U : URules) : List Nat → List Nat → Prop
  | nil : YieldsAll U [] []
  | cons {s : Nat} {ss u v : List Nat} : Yields U s u → YieldsAll U ss v → YieldsAll U (s :: ss) (u ++ v)
end

/-- The user's grammar has a rule for `A` with the symbol `B` all whose neighbours are nullable: what derives from `B` derives
from `A`. -/
def UStep (U : URules) (B A : Nat) : Prop := ∃ (k : Nat) (rhs : List Nat) (j : Nat), U[k]? = some (A, rhs) ∧
  rhs[j]? = some B ∧ ∀ i s, i ≠ j → rhs[i]? = some s → UNullable U s

/-- The symbol derives itself. -/
def UCyclic (U : URules) (A : Nat) : Prop := Relation.TransGen (UStep U) A A

/-- Trees of the user's grammar: a token with its value, the empty derivation of a symbol, a rule applied to subtrees. -/
inductive UTree where
  | leaf (sym value : Nat)
  | empty (sym : Nat)
  | node (rule : Nat) (kids : List UTree)

mutual
/-- `UTreeOf U inp t A i j`: `t` is a derivation tree of the symbol `A` over the input positions `i .. j`. -/
inductive UTreeOf (U : URules) (inp : Input) : UTree → Nat → Nat → Nat → Prop
  | leaf {a v i : Nat} : (a, v) ∈ inp i → UTreeOf U inp (.leaf a v) a i (i + 1)
  | empty {s i : Nat} : UNullable U s → UTreeOf U inp (.empty s) s i i
  | node {k A i j : Nat} {rhs : List Nat} {kids : List UTree} : U[k]? = some (A, rhs) → UKids U inp kids rhs i j → i < j →
      UTreeOf U inp (.node k kids) A i j
/-- Trees of several symbols, one after the other. -/
inductive UKids (U : URules) (inp : Input) : List UTree → List Nat → Nat → Nat → Prop
  | nil {i : Nat} : UKids U inp [] [] i i
  | cons {t : UTree} {s i k j : Nat} {ts : List UTree} {ss : List Nat} : UTreeOf U inp t s i k → UKids U inp ts ss k j →
      UKids U inp (t :: ts) (s :: ss) i j
end

mutual
/-- The value of a tree: the evaluator is asked for the values of tokens, of empty symbols (`nul`), and of rules, given
the values of the symbols of the rule in order. -/
def uval {α : Type} (E : Evaluator α) (nul : Nat → α) : UTree → α
  | .leaf s v => E.leaf s v
  | .empty s => nul s
  | .node k kids => E.product k (uvals E nul kids)
def uvals {α : Type} (E : Evaluator α) (nul : Nat → α) : List UTree → List α
  | [] => []
  | t :: ts => uval E nul t :: uvals E nul ts
end

/-- Names for the symbols made by left binarization: `name k j` stands for the first `j` symbols of rule `k`, where `j` is at
least 2 and less than the length of the rule. -/
structure Names (U : URules) where
  name : Nat → Nat → Nat
  /-- the rule and length that a symbol is the name for -/
  parts : Nat → Option (Nat × Nat)
  parts_name : ∀ k A rhs j, U[k]? = some (A, rhs) → 2 ≤ j → j < rhs.length → parts (name k j) = some (k, j)
  user : ∀ r ∈ U, parts r.1 = none ∧ ∀ s ∈ r.2, parts s = none

/-- The symbol for the first `j` symbols of the right-hand side `rhs` of rule `k`. -/
def Names.pre {U : URules} (N : Names U) (k : Nat) (rhs : List Nat) (j : Nat) : Nat :=
  if j = 1 then rhs.headD 0 else N.name k j

/-- What binarization and elimination of empty rules make of rule `k`, `A ::= rhs`. A rule with one symbol stays. Otherwise
there is, for `2 ≤ j ≤ rhs.length`, a rule for the first `j` symbols: the first `j - 1` followed by the `j`-th. If the
`j`-th symbol or the first `j - 1` symbols are nullable, there is a rule without them that remembers them. Only the rule for
the whole right-hand side has the number `k`. -/
inductive Expected (U : URules) (N : Names U) : CfgRule → Prop
  | single {k A s : Nat} {dots : List EarleyDot} : U[k]? = some (A, [s]) →
      Expected U N { lhs := A, rhs := [s], origin := some k, nullable := none, dots := dots }
  | both {k A j y : Nat} {rhs : List Nat} {dots : List EarleyDot} : U[k]? = some (A, rhs) → 1 ≤ j → rhs[j]? = some y →
      Expected U N { lhs := if j + 1 = rhs.length then A else N.name k (j + 1), rhs := [N.pre k rhs j, y],
                     origin := if j + 1 = rhs.length then some k else none, nullable := none, dots := dots }
  | dropRight {k A j y : Nat} {rhs : List Nat} {dots : List EarleyDot} : U[k]? = some (A, rhs) → 1 ≤ j → rhs[j]? = some y →
      UNullable U y →
      Expected U N { lhs := if j + 1 = rhs.length then A else N.name k (j + 1), rhs := [N.pre k rhs j],
                     origin := if j + 1 = rhs.length then some k else none, nullable := some (y, true), dots := dots }
  | dropLeft {k A j y : Nat} {rhs : List Nat} {dots : List EarleyDot} : U[k]? = some (A, rhs) → 1 ≤ j → rhs[j]? = some y →
      (∀ s ∈ rhs.take j, UNullable U s) →
      Expected U N { lhs := if j + 1 = rhs.length then A else N.name k (j + 1), rhs := [y],
                     origin := if j + 1 = rhs.length then some k else none, nullable := some (N.pre k rhs j, false), dots := dots }

/-- The symbol derives a string of tokens that is not empty. -/
def Live (U : URules) (s : Nat) : Prop := ∃ a u, Yields U s (a :: u)

/-- All symbols of the rule derive non-empty strings. -/
def LiveRule (U : URules) (N : Names U) (r : CfgRule) : Prop :=
  ∀ s ∈ r.rhs, match N.parts s with
    | none => Live U s
    | some (k, j) => ∃ A rhs a u, U[k]? = some (A, rhs) ∧ YieldsAll U (rhs.take j) (a :: u)

/-- A rule without its dots. -/
def bare (r : CfgRule) : CfgRule := { r with dots := [] }

/-- The rules of `c`, other than those of the wrapped root, are the user's rules, binarized and without empty rules. Rules
with symbols that derive no non-empty string may be missing. -/
structure Binarizes (U : URules) (N : Names U) (w : WrappedRoot) (g0 : Nat) (c : Cfg) : Prop where
  sound : ∀ r ∈ c.rules, r.lhs = w.root ∨ r.lhs = g0 ∨ Expected U N r
  complete : ∀ r, Expected U N r → LiveRule U N r → ∃ q ∈ c.rules, bare q = bare r
  nodup : (c.rules.map bare).Nodup
  /-- the rules added by wrapping are added once -/
  once : ∀ q ∈ c.rules, ∀ r ∈ c.rules, q.lhs = g0 → r.lhs = g0 → q.rhs = r.rhs → bare q = bare r
  /-- the symbols of the wrapped root are new -/
  fresh : ∀ s, s = w.root ∨ s = g0 ∨ s = w.sof ∨ s = w.eof → N.parts s = none ∧ ∀ r ∈ U, r.1 ≠ s ∧ s ∉ r.2

/-- The rules for empty symbols split off by the crate `cfg`, as far as they have two symbols and no number: the name of a
nullable beginning stands for the beginning before its last symbol, and that symbol. -/
structure EmptyCfg (U : URules) (N : Names U) (nulling : Cfg) : Prop where
  sound : ∀ r ∈ nulling.rules, r.origin = none → r.rhs.length = 2 → ∃ k A rhs j y, U[k]? = some (A, rhs) ∧ 1 ≤ j ∧
    j + 1 < rhs.length ∧ rhs[j]? = some y ∧ r.lhs = N.name k (j + 1) ∧ r.rhs = [N.pre k rhs j, y]
  complete : ∀ k A rhs j y, U[k]? = some (A, rhs) → 1 ≤ j → j + 1 < rhs.length → rhs[j]? = some y →
    (∀ s ∈ rhs.take (j + 1), UNullable U s) → ∃ r ∈ nulling.rules, r.origin = none ∧ r.lhs = N.name k (j + 1) ∧ r.rhs = [N.pre k rhs j, y]

mutual
/-- The number of nodes of a tree. -/
def UTree.size : UTree → Nat
  | .leaf _ _ => 1
  | .empty _ => 1
  | .node _ kids => 1 + sizes kids
def UTree.sizes : List UTree → Nat
  | [] => 0
  | t :: ts => t.size + UTree.sizes ts
end

/-- The input of `parse`: one token at each position, whose value is the position. -/
def tokInput (toks : List Nat) : Input := fun i => match toks[i]? with
  | some t => [(t, i % 2 ^ 32)]
  | none => []

end Gearley.Spec
