import Verif.Spec.Grammar

/-! # Earley's algorithm with hints about the next token

What a recognizer finds that is told before every position which token comes next, and that enters and completes rules
only where its tables allow that token. The hints need not be right. -/

namespace Gearley.Spec

/-- A grammar, tables of the tokens a symbol may begin with and of the tokens that may come after it, an input and the
hints. The symbols from `syms` on stand for parts of rules. -/
structure Guided where
  rules : Rules
  start : Nat
  syms : Nat
  first : Nat → Nat → Prop
  follow : Nat → Nat → Prop
  inp : Input
  /-- The token announced to come after the position. -/
  hint : Nat → Option Nat

namespace Guided

/-- The hint allows `C` to begin after `B`. Parts of rules are not checked. -/
def Enters (G : Guided) (b B C : Nat) : Prop := G.syms ≤ B ∨ ∀ h, G.hint b = some h → G.first C h

/-- The hint allows `A` to end. Parts of rules are not checked. -/
def Ends (G : Guided) (b A : Nat) : Prop := G.syms ≤ A ∨ ∀ h, G.hint b = some h → G.follow A h

mutual
/-- `A` may begin at `a`. -/
inductive Pred (G : Guided) : Nat → Nat → Prop
  | start : G.Pred 0 G.start
  | corner {a A B : Nat} : G.Pred a A → Corner G.rules A B → G.Pred a B
  | next {d A B C a b : Nat} {t : PTree} : G.rules[d]? = some ⟨A, B, some C⟩ → G.Pred a A → G.Found b B a t →
      G.Enters b B C → G.Pred b C

/-- The tree `t` of `A` is found over `a .. b`. -/
inductive Found (G : Guided) : Nat → Nat → Nat → PTree → Prop
  | token {A v e : Nat} : (A, v) ∈ G.inp e → G.Found (e + 1) A e (.leaf A v)
  | unary {d A B a b : Nat} {t : PTree} : G.rules[d]? = some ⟨A, B, none⟩ → G.Pred a A → G.Found b B a t →
      G.syms ≤ B ∨ G.Ends b A → G.Found b A a (.node d t)
  | binary {d A B C a m b : Nat} {l r : PTree} : G.rules[d]? = some ⟨A, B, some C⟩ → G.Pred a A → G.Found m B a l →
      G.Enters m B C → G.Found b C m r → G.Ends b A → G.Found b A a (.node d (.pair l r))
end

/-- The first symbol of the rule `d` is found over `a .. b` with the tree `t`, and the second is awaited. -/
def Item (G : Guided) (b d a : Nat) (t : PTree) : Prop :=
  ∃ A B C, G.rules[d]? = some ⟨A, B, some C⟩ ∧ G.Pred a A ∧ G.Found b B a t ∧ G.Enters b B C

/-- Some rule is entered or completed at `b`. -/
def Lives (G : Guided) (b : Nat) : Prop := (∃ d a t, G.Item b d a t) ∨ ∃ A a d t, G.Found b A a (.node d t)

/-- The rule `A ::= B` is completed at `b` if `B` is. -/
def Fires (G : Guided) (b A B : Nat) : Prop := ∃ d : Nat, G.rules[d]? = some ⟨A, B, none⟩ ∧ (G.syms ≤ B ∨ G.Ends b A)

/-- A symbol that is expected and found derives itself with rules that may all end at `b`. -/
def Loops (G : Guided) (b : Nat) : Prop :=
  ∃ a A t, G.Pred a A ∧ G.Found b A a t ∧ Relation.TransGen (G.Fires b) A A

end Guided
end Gearley.Spec
