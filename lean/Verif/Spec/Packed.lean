import Verif.Spec.Evaluate

/-!
# Specification: packed forests

A parse forest is *packed* if the node for a symbol over a range of the input has exactly one alternative for every rule
and every place where the rule can be split, and each alternative refers to the nodes of the symbols of the rule. A packed
forest is determined by grammar and input, up to the order of the alternatives.
-/

namespace Gearley
open Gearley.Spec

/-- What a handle of a bocage refers to: a token, the two factors of a rule, or alternatives (rule, factor). -/
inductive View where
  | leaf (sym value : Nat)
  | rule (left right : Nat)
  | alts (as : List (Nat × Nat))
  deriving DecidableEq, Repr

/-- Handles of the simple bocage. Several alternatives follow their sum node. -/
inductive Simple.HasView (G : List Simple.Node) : Nat → View → Prop
  | leaf {h s v} : G[h]? = some (.leaf s v) → HasView G h (.leaf s v)
  | rule {h l r} : G[h]? = some (.rule l r) → HasView G h (.rule l r)
  | product {h d f} : G[h]? = some (.product d f) → HasView G h (.alts [(d, f)])
  | sum {h nt as} : G[h]? = some (.sum nt as.length) → 1 < as.length →
      (∀ i (hi : i < as.length), G[h + 1 + i]? = some (.product as[i].1 as[i].2)) → HasView G h (.alts as)

/-- The alternatives of the compact bocage from a position up to the next end mark. -/
inductive Compact.Chain (G : List Nat) : Nat → List (Nat × Nat) → Prop
  | done {h} : Compact.get G h = pure .endSum → Chain G h []
  | summand {h d f s as} : Compact.get G h = pure (.summand d f) → Compact.getNodeSize G h = pure s → Chain G (h + s) as →
      Chain G h ((d, f) :: as)

/-- Handles of the compact bocage. A single alternative has no begin mark. -/
inductive Compact.HasView (G : List Nat) : Nat → View → Prop
  | leaf {h s v} : Compact.get G h = pure (.leaf s v) → HasView G h (.leaf s v)
  | rule {h l r} : Compact.get G h = pure (.rule l r) → HasView G h (.rule l r)
  | single {h d f} : Compact.Chain G h [(d, f)] → HasView G h (.alts [(d, f)])
  | beginSum {h as} : Compact.get G h = pure .beginSum → 1 < as.length → Compact.Chain G (h + 1) as → HasView G h (.alts as)

/-- The symbol `A` over `i .. j` can be derived with rule `d`, where the first symbol of the rule ends at `m`. (For a rule
with one symbol, `m` is `j`.) -/
def Alternative (R : Rules) (inp : Input) (A i j d m : Nat) : Prop :=
  (∃ B, R[d]? = some ⟨A, B, none⟩ ∧ m = j ∧ ∃ t, TreeOf R inp t B i j) ∨
  (∃ B C, R[d]? = some ⟨A, B, some C⟩ ∧ (∃ t, TreeOf R inp t B i m) ∧ ∃ t, TreeOf R inp t C m j)

/-- The handle `h` refers to a packed forest for `A` over `i .. j`. The alternatives are `(rule, split, factor)`. -/
inductive Packs (V : Nat → View → Prop) (R : Rules) (inp : Input) : Nat → Nat → Nat → Nat → Prop
  | leaf {A v i h} : V h (.leaf A v) → (A, v) ∈ inp i → Packs V R inp A i (i + 1) h
  | node {A i j h} (as : List (Nat × Nat × Nat)) : V h (.alts (as.map fun a => (a.1, a.2.2))) →
      (as.map fun a => (a.1, a.2.1)).Nodup →
      (∀ d m, (d, m) ∈ (as.map fun a => (a.1, a.2.1)) ↔ Alternative R inp A i j d m) → as ≠ [] →
      (∀ d m f B, (d, m, f) ∈ as → R[d]? = some ⟨A, B, none⟩ → Packs V R inp B i j f) →
      (∀ d m f B C, (d, m, f) ∈ as → R[d]? = some ⟨A, B, some C⟩ → ∃ l r, V f (.rule l r)) →
      (∀ d m f B C l r, (d, m, f) ∈ as → R[d]? = some ⟨A, B, some C⟩ → V f (.rule l r) → Packs V R inp B i m l) →
      (∀ d m f B C l r, (d, m, f) ∈ as → R[d]? = some ⟨A, B, some C⟩ → V f (.rule l r) → Packs V R inp C m j r) →
      Packs V R inp A i j h

section
variable {α : Type}

/-- One alternative of a packed node: rule, split, the values of the symbols of the rule, and their costs. -/
structure PackedAlt (α : Type) where
  rule : Nat
  split : Nat
  left : List α
  right : List α
  costL : Nat
  costR : Nat

/-- Arguments of the rule: the values of both symbols of its right-hand side, or those of the only symbol and of the symbol
that was removed. -/
def PackedAlt.args (info : ForestInfo) (nv : Nat → List α) (R : Rules) (a : PackedAlt α) : List α :=
  match R[a.rule]?.bind (·.rhs1) with
  | some _ => a.left ++ a.right
  | none => match info.removed a.rule with
    | none => a.left
    | some (s, true) => a.left ++ nv s
    | some (s, false) => nv s ++ a.left

/-- Cost of the arguments and of the rule. -/
def PackedAlt.cost (info : ForestInfo) (nc : Nat → Nat) (R : Rules) (a : PackedAlt α) : Nat :=
  (match R[a.rule]?.bind (·.rhs1) with
  | some _ => a.costL + a.costR
  | none => match info.removed a.rule with
    | none => a.costL
    | some (s, _) => a.costL + nc s) + 1

/-- The values of a packed forest for `A` over `i .. j`: those of the alternatives, one after the other in some order. The
values of an alternative are those of its rule applied to *all* values of the symbols of the rule. The number is the count
of all values and calls, where shared parts count for each use. -/
inductive PackedVals (info : ForestInfo) (E : Evaluator α) (nv : Nat → List α) (nc : Nat → Nat) (R : Rules) (inp : Input) :
    Nat → Nat → Nat → List α → Nat → Prop
  | leaf {A v i} : (A, v) ∈ inp i → PackedVals info E nv nc R inp A i (i + 1) [E.leaf A v] 1
  | node {A i j} (as : List (PackedAlt α)) :
      (as.map fun a => (a.rule, a.split)).Nodup →
      (∀ d m, (d, m) ∈ (as.map fun a => (a.rule, a.split)) ↔ Alternative R inp A i j d m) → as ≠ [] →
      (∀ a ∈ as, ∀ B, R[a.rule]? = some ⟨A, B, none⟩ → PackedVals info E nv nc R inp B i j a.left a.costL) →
      (∀ a ∈ as, ∀ B C, R[a.rule]? = some ⟨A, B, some C⟩ → PackedVals info E nv nc R inp B i a.split a.left a.costL) →
      (∀ a ∈ as, ∀ B C, R[a.rule]? = some ⟨A, B, some C⟩ → PackedVals info E nv nc R inp C a.split j a.right a.costR) →
      PackedVals info E nv nc R inp A i j (as.flatMap fun a => applyRule info E a.rule (a.args info nv R))
        (as.map fun a => a.cost info nc R).sum

end
end Gearley
