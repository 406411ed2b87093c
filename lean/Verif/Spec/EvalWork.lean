import Verif.Spec.Packed

/-!
# Specification: the number of rounds of an evaluation

A round is one iteration of the `while` loop of `evaluate` in the crates simple-bocage and compact-bocage (traverse.rs): one
entry is taken from the work stack.
-/

namespace Gearley
open Gearley.Spec

/-- Rounds for the empty derivation of a symbol: one for a leaf; two for a product and three for its pair of factors. The
equations exclude cycles among the rules. -/
structure NullRounds (info : ForestInfo) (nr : Nat → Nat) : Prop where
  leaf : ∀ s, info.nullingRule s = none → nr s = 1
  rule : ∀ s x y, info.nullingRule s = some (x, y) → nr s = nr x + nr y + 5

/-- One alternative: rule, split, and the rounds for the symbols of the rule. -/
structure WorkAlt where
  rule : Nat
  split : Nat
  left : Nat
  right : Nat
  deriving DecidableEq

/-- Rounds for an alternative: two for the rule, three for a pair of factors, and those for the factors. -/
def WorkAlt.rounds (info : ForestInfo) (nr : Nat → Nat) (R : Rules) (a : WorkAlt) : Nat :=
  match R[a.rule]?.bind (·.rhs1) with
  | some _ => a.left + a.right + 5
  | none => match info.removed a.rule with
    | none => a.left + 2
    | some (s, _) => a.left + nr s + 5

/-- Rounds for a packed forest of `A` over `i .. j`: the sum of those of its alternatives, and `extra n` more for `n`
alternatives. Shared parts count for each use. -/
inductive PackedWork (extra : Nat → Nat) (nr : Nat → Nat) (info : ForestInfo) (R : Rules) (inp : Input) :
    Nat → Nat → Nat → Nat → Prop
  | leaf {A v i} : (A, v) ∈ inp i → PackedWork extra nr info R inp A i (i + 1) 1
  | node {A i j} (as : List WorkAlt) :
      (as.map fun a => (a.rule, a.split)).Nodup →
      (∀ d m, (d, m) ∈ (as.map fun a => (a.rule, a.split)) ↔ Alternative R inp A i j d m) → as ≠ [] →
      (∀ a ∈ as, ∀ B, R[a.rule]? = some ⟨A, B, none⟩ → PackedWork extra nr info R inp B i j a.left) →
      (∀ a ∈ as, ∀ B C, R[a.rule]? = some ⟨A, B, some C⟩ → PackedWork extra nr info R inp B i a.split a.left) →
      (∀ a ∈ as, ∀ B C, R[a.rule]? = some ⟨A, B, some C⟩ → PackedWork extra nr info R inp C a.split j a.right) →
      PackedWork extra nr info R inp A i j ((as.map fun a => a.rounds info nr R).sum + extra as.length)

/-- Several summands of the simple bocage: one round for each, and the last. -/
def Simple.extra (n : Nat) : Nat := if n = 1 then 0 else n + 1

/-- Summands of the compact bocage: a round for the end mark, and one for the begin mark of several summands. -/
def Compact.extra (n : Nat) : Nat := if n = 1 then 1 else 2

/-- Rounds for a tree, where the nodes have one alternative each. -/
def treeRounds (e : Nat) (nr : Nat → Nat) (info : ForestInfo) : PTree → Nat
  | .leaf _ _ => 1
  | .nulling s => nr s
  | .pair l r => treeRounds e nr info l + treeRounds e nr info r + 3
  | .node d f => treeRounds e nr info f + 2 + e + match f with
    | .pair _ _ => 0
    | _ => match info.removed d with
      | none => 0
      | some (s, _) => nr s + 3

end Gearley
