import Verif.Spec.Grammar

/-! # What is found with look-ahead -/

namespace Gearley.Spec

/-- No symbol has two derivation trees over the same positions of the input, where it can begin after what comes before. -/
def SingleTrees (R : Rules) (start : Nat) (inp : Input) : Prop := ∀ A a b t t', Pred R start inp a A →
  TreeOf R inp t A a b → TreeOf R inp t' A a b → t = t'

/-- `Seen b A a`: the symbol `A` is found over the positions `a .. b` when rules are only entered and completed where the token to
come allows it. `hint b` is the token said to come at `b`, if any. `first C h` and `follow A h` are the look-ahead sets; generated
symbols, those from `syms` on, are not filtered. -/
inductive Seen (first follow : Nat → Nat → Prop) (syms : Nat) (R : Rules) (inp : Input) (hint : Nat → Option Nat) :
    Nat → Nat → Nat → Prop
  | token {e A v : Nat} : (A, v) ∈ inp e → Seen first follow syms R inp hint (e + 1) A e
  | unary {b A B a : Nat} : ⟨A, B, none⟩ ∈ R → Seen first follow syms R inp hint b B a →
      (syms ≤ B ∨ syms ≤ A ∨ ∀ h, hint b = some h → follow A h) → Seen first follow syms R inp hint b A a
  | binary {b m A B C a : Nat} : ⟨A, B, some C⟩ ∈ R → Seen first follow syms R inp hint m B a →
      (syms ≤ B ∨ ∀ h, hint m = some h → first C h) → Seen first follow syms R inp hint b C m →
      (syms ≤ A ∨ ∀ h, hint b = some h → follow A h) → Seen first follow syms R inp hint b A a

end Gearley.Spec
