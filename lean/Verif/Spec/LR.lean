import Verif.Spec.User

/-!
# Specification: LR(1) grammars

Knuth's definition, for the grammar with a start symbol of its own and markers of the beginning and the end of the input.
-/

namespace Gearley.Spec

/-- One step of a rightmost derivation: the last symbol that is not a token is replaced by the right-hand side of a rule. -/
inductive RStep (P : URules) : List Nat → List Nat → Prop
  | mk {A : Nat} {β γ x : List Nat} : (A, β) ∈ P → (∀ t ∈ x, UTerminal P t) → RStep P (γ ++ A :: x) (γ ++ β ++ x)

/-- Rightmost derivation in any number of steps. -/
abbrev RSteps (P : URules) : List Nat → List Nat → Prop := Relation.ReflTransGen (RStep P)

/-- Right-sentential forms. -/
def RForm (P : URules) (S : Nat) (φ : List Nat) : Prop := RSteps P [S] φ

/-- The grammar is LR(1): in a right-sentential form, what comes before the next token and that token tell which right-hand side
was introduced last, and where. -/
def LR1 (P : URules) (S : Nat) : Prop :=
  ∀ (γ δ β β' : List Nat) (A B : Nat) (x y z : List Nat), (∀ t ∈ x, UTerminal P t) → (∀ t ∈ y, UTerminal P t) →
    (∀ t ∈ z, UTerminal P t) → RForm P S (γ ++ A :: x) → (A, β) ∈ P → RForm P S (δ ++ B :: y) → (B, β') ∈ P →
    γ ++ β ++ z = δ ++ β' ++ y → z.head? = x.head? → γ ++ A :: z = δ ++ B :: y

/-- The user's grammar with the rule for the wrapped root. -/
def augmented (U : URules) (w : WrappedRoot) : URules := (w.root, [w.sof, w.innerRoot, w.eof]) :: U

/-- The symbol is part of a sentential form of the grammar with the given root. -/
inductive UReached (U : URules) (root : Nat) : Nat → Prop
  | root : UReached U root root
  | rule {A s : Nat} {rhs : List Nat} : UReached U root A → (A, rhs) ∈ U → s ∈ rhs → UReached U root s

end Gearley.Spec
