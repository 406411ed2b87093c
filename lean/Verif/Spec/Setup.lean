import Verif.Spec.Processed
import Verif.Spec.SafeForest

/-!
# Specification: the preconditions of the recognizer theorems
-/

namespace Gearley.Spec
open Gearley

/-- There is no cycle of one-symbol rules. -/
def UnaryAcyclic (R : Rules) : Prop := ∃ rank : Nat → Nat, ∀ r ∈ R, r.rhs1 = none → rank r.lhs < rank r.rhs0

/-- `g` is the result of `from_processed_grammars` on a processed grammar with complete FIRST and FOLLOW sets. `n` is the
number of ordinary symbols. -/
structure Prepared (c : Cfg) (n : Nat) (w : WrappedRoot) (g : DefaultGrammar) : Prop where
  processed : ∃ depth, ProcessedOK c n w depth
  tables : ∃ maps nulling first follow, fromProcessed c maps nulling first follow = pure g ∧
    FirstSetsOK (rulesOf c) n first ∧ FollowSetsOK (rulesOf c) n w.root follow
  sof_lt : w.sof < n
  sofTerm : Terminal (rulesOf c) w.sof

/-- The grammar also has no one-symbol cycles. -/
structure Built (c : Cfg) (n : Nat) (w : WrappedRoot) (g : DefaultGrammar) : Prop extends Prepared c n w g where
  acyclic : UnaryAcyclic (rulesOf c)

/-- `B ::= A` is a rule. -/
def UnaryStep (R : Rules) (A B : Nat) : Prop := ∃ r ∈ R, r.rhs0 = A ∧ r.rhs1 = none ∧ r.lhs = B

/-- `A` is on a cycle of one-symbol rules, such as `A ::= A`. -/
def OnCycle (R : Rules) (A : Nat) : Prop := Relation.TransGen (UnaryStep R) A A

/-- Symbol `A` is completed at position `k`: it is predicted where it starts, and matches up to `k`. -/
def Completes (R : Rules) (start : Nat) (inp : Input) (k A : Nat) : Prop :=
  ∃ a t, Pred R start inp a A ∧ TreeOf R inp t A a k

/-- The forest implementation, starting in state `f`, does not panic for rules below `dots`, tokens below `syms` and
values below `2 ^ 32`. -/
def SafeStart {σ ν : Type} (F : ForestOps σ ν) (f : σ) (dots syms : Nat) : Prop :=
  ∃ (okDot : Nat → Prop) (okLeaf : Nat → Nat → Prop) (S : SafeForest F okDot okLeaf) (w : S.γ),
    S.Idle w f ∧ (∀ d, d < dots → okDot d) ∧ ∀ sym val, sym < syms → val < 2 ^ 32 → okLeaf sym val

theorem nullForest_safeStart (dots syms : Nat) : SafeStart nullForest () dots syms :=
  ⟨_, _, nullSafe, (), trivial, fun _ _ => trivial, fun _ _ _ _ => trivial⟩

/-- `p` is the beginning of a sentential form of `start`. -/
def ViablePrefix (R : Rules) (start : Nat) (p : List Nat) : Prop := ∃ v, Derives R start (p ++ v)

/-- FIRST sets that are closed under the rules. -/
def FirstClosed (R : Rules) (first : List (Nat × List Nat)) : Prop :=
  ∀ r ∈ R, ∃ p ∈ first, p.1 = r.lhs ∧ ((∀ r' ∈ R, r'.lhs ≠ r.rhs0) → r.rhs0 ∈ p.2) ∧
    ∀ q ∈ first, q.1 = r.rhs0 → ∀ t ∈ q.2, t ∈ p.2

/-- FOLLOW sets that are closed under the rules. -/
def FollowClosed (R : Rules) (first follow : List (Nat × List Nat)) : Prop :=
  ∀ r ∈ R, match r.rhs1 with
    | none => ∃ p ∈ follow, p.1 = r.rhs0 ∧ ∀ q ∈ follow, q.1 = r.lhs → ∀ t ∈ q.2, t ∈ p.2
    | some C => (∃ p ∈ follow, p.1 = r.rhs0 ∧ ((∀ r' ∈ R, r'.lhs ≠ C) → C ∈ p.2) ∧
        ∀ q ∈ first, q.1 = C → ∀ t ∈ q.2, t ∈ p.2) ∧
      ∃ p ∈ follow, p.1 = C ∧ ∀ q ∈ follow, q.1 = r.lhs → ∀ t ∈ q.2, t ∈ p.2

instance (R : Rules) (first : List (Nat × List Nat)) : Decidable (FirstClosed R first) := by
  unfold FirstClosed; infer_instance

instance (R : Rules) (first follow : List (Nat × List Nat)) : Decidable (FollowClosed R first follow) := by
  unfold FollowClosed
  refine @List.decidableBAll _ _ (fun r => ?_) R
  cases r.rhs1 <;> infer_instance

end Gearley.Spec
