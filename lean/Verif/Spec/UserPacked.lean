import Verif.Spec.User

/-!
# Specification: values of ambiguous inputs, in terms of the user's grammar

`UVals` says what evaluation returns for a symbol of the user's grammar over a part of the input, if the part may have several
derivation trees. There is one value for each rule and each start of the last symbol of the rule, not one for each tree. The
rule is applied to *all* values of its other symbols, one after the other, followed by all values of the last symbol. `UPrefix`
are the values of several symbols: those for each start of the last of them, one after the other.
-/

namespace Gearley.Spec
open Gearley

/-- A way to derive part of the input from several symbols: the rule, the start of the last symbol, the values of the symbols
before it and of the last symbol, and their counts. -/
structure UAlt (α : Type) where
  rule : Nat
  split : Nat
  left : List α
  right : List α
  countL : Nat
  countR : Nat

mutual
/-- `UVals U E nul inp A i j vs n`: the values `vs` of the symbol `A` over the input positions `i .. j`. The alternatives are
in any order. The number `n` counts tokens, empty symbols and rules, where shared parts count for each use. -/
inductive UVals {α : Type} (U : URules) (E : Evaluator α) (nul : Nat → α) (inp : Input) : Nat → Nat → Nat → List α → Nat → Prop
  | leaf {A v i : Nat} : (A, v) ∈ inp i → UVals U E nul inp A i (i + 1) [E.leaf A v] 1
  | empty {A i : Nat} : UNullable U A → UVals U E nul inp A i i [nul A] 1
  | node {A i j : Nat} (as : List (UAlt α)) : i < j → as ≠ [] → (as.map fun a => (a.rule, a.split)).Nodup →
      (∀ k p, (k, p) ∈ (as.map fun a => (a.rule, a.split)) ↔
        ∃ ss y ts t, U[k]? = some (A, ss ++ [y]) ∧ UKids U inp ts ss i p ∧ UTreeOf U inp t y p j) →
      (∀ a ∈ as, ∀ ss y, U[a.rule]? = some (A, ss ++ [y]) → UPrefix U E nul inp ss i a.split a.left a.countL) →
      (∀ a ∈ as, ∀ ss y, U[a.rule]? = some (A, ss ++ [y]) → UVals U E nul inp y a.split j a.right a.countR) →
      UVals U E nul inp A i j (as.map fun a => E.product a.rule (a.left ++ a.right)) (as.map fun a => a.countL + a.countR + 1).sum
/-- The values of the symbols `ss`, one after the other. -/
inductive UPrefix {α : Type} (U : URules) (E : Evaluator α) (nul : Nat → α) (inp : Input) : List Nat → Nat → Nat → List α → Nat → Prop
  | nil {i : Nat} : UPrefix U E nul inp [] i i [] 0
  | snoc {ss : List Nat} {y i j : Nat} (as : List (UAlt α)) : as ≠ [] → (as.map fun a => a.split).Nodup →
      (∀ p, p ∈ (as.map fun a => a.split) ↔ ∃ ts t, UKids U inp ts ss i p ∧ UTreeOf U inp t y p j) →
      (∀ a ∈ as, UPrefix U E nul inp ss i a.split a.left a.countL) →
      (∀ a ∈ as, UVals U E nul inp y a.split j a.right a.countR) →
      UPrefix U E nul inp (ss ++ [y]) i j (as.flatMap fun a => a.left ++ a.right) (as.map fun a => a.countL + a.countR).sum
end

end Gearley.Spec
