import Mathlib.Logic.Relation

/-!
# Specification: binarized grammars, derivations, parse trees

Independent of the model of the code. Symbols are numbers; a rule has one or two right-hand symbols; rules are numbered
by their position in the list.
-/

namespace Gearley.Spec

/-- A rule `lhs ::= rhs0` or `lhs ::= rhs0 rhs1`. -/
structure Rule where
  lhs : Nat
  rhs0 : Nat
  rhs1 : Option Nat
  deriving DecidableEq, Repr

abbrev Rules := List Rule

/-- `Derives R A u`: the sentential form `u` can be derived from the symbol `A` in zero or more steps. -/
inductive Derives (R : Rules) : Nat → List Nat → Prop
  | refl (A : Nat) : Derives R A [A]
  | unary {r : Rule} {u : List Nat} : r ∈ R → r.rhs1 = none → Derives R r.rhs0 u → Derives R r.lhs u
  | binary {r : Rule} {C : Nat} {u v : List Nat} : r ∈ R → r.rhs1 = some C → Derives R r.rhs0 u → Derives R C v →
      Derives R r.lhs (u ++ v)

/-- Parse trees. A completed rule is `node dot f` where `f` is the subtree of a one-symbol rule or the `pair` of
subtrees of a two-symbol rule. -/
inductive PTree where
  | leaf (sym value : Nat)
  | node (dot : Nat) (f : PTree)
  | pair (l r : PTree)
  | nulling (sym : Nat)
  deriving DecidableEq, Repr

/-- Input: the tokens (symbol and value) read at every position. Usually one token per position. -/
abbrev Input := Nat → List (Nat × Nat)

/-- `TreeOf R inp t A i j`: `t` is a derivation tree of the symbol `A` over the input positions `i .. j`. -/
inductive TreeOf (R : Rules) (inp : Input) : PTree → Nat → Nat → Nat → Prop
  | leaf {a v i} : (a, v) ∈ inp i → TreeOf R inp (.leaf a v) a i (i + 1)
  | unary {d A B f i j} : R[d]? = some ⟨A, B, none⟩ → TreeOf R inp f B i j → TreeOf R inp (.node d f) A i j
  | binary {d A B C l r i k j} : R[d]? = some ⟨A, B, some C⟩ → TreeOf R inp l B i k → TreeOf R inp r C k j →
      TreeOf R inp (.node d (.pair l r)) A i j

/-- `Ctx R start inp n A i j`: the symbol `A` over `i .. j` occurs in a derivation of the whole input `0 .. n` from
`start` in which everything outside `i .. j` is already matched with the input. -/
inductive Ctx (R : Rules) (start : Nat) (inp : Input) (n : Nat) : Nat → Nat → Nat → Prop
  | root : Ctx R start inp n start 0 n
  | unary {d A B i j : Nat} : R[d]? = some ⟨A, B, none⟩ → Ctx R start inp n A i j → Ctx R start inp n B i j
  | left {d A B C i k j : Nat} {r : PTree} : R[d]? = some ⟨A, B, some C⟩ → Ctx R start inp n A i j → TreeOf R inp r C k j →
      Ctx R start inp n B i k
  | right {d A B C i k j : Nat} {l : PTree} : R[d]? = some ⟨A, B, some C⟩ → Ctx R start inp n A i j → TreeOf R inp l B i k →
      Ctx R start inp n C k j

/-- One left-corner step: `B` is the first symbol of a rule for `A`. -/
def Corner (R : Rules) (A B : Nat) : Prop := ∃ r ∈ R, r.lhs = A ∧ r.rhs0 = B

/-- Earley's prediction: `A` may start at position `p` after the input before `p`. -/
inductive Pred (R : Rules) (start : Nat) (inp : Input) : Nat → Nat → Prop
  | start : Pred R start inp 0 start
  | corner {p A B} : Pred R start inp p A → Corner R A B → Pred R start inp p B
  | medial {d A B C q p : Nat} {t : PTree} : R[d]? = some ⟨A, B, some C⟩ → Pred R start inp q A → TreeOf R inp t B q p →
      Pred R start inp p C

/-- Earley's items at position `e`: the rule `d = A ::= B C` where `A` may start at `a` and `B` matches `a .. e`. -/
def EarleyItem (R : Rules) (start : Nat) (inp : Input) (d a e : Nat) : Prop :=
  ∃ A B C t, R[d]? = some ⟨A, B, some C⟩ ∧ Pred R start inp a A ∧ TreeOf R inp t B a e

/-- `w` picks one token at each of the positions `i, i+1, ..`. -/
def Picks (inp : Input) : Nat → List Nat → Prop
  | _, [] => True
  | i, a :: w => (∃ v, (a, v) ∈ inp i) ∧ Picks inp (i + 1) w

/-- A symbol without rules. -/
def Terminal (R : Rules) (a : Nat) : Prop := ∀ r ∈ R, r.lhs ≠ a

end Gearley.Spec
