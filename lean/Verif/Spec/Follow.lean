import Verif.Spec.Binarized

/-!
# Specification: the textbook rules for FIRST and FOLLOW
-/

namespace Gearley.Spec

/-- `t` can be the first symbol of `C`. -/
inductive FirstIn (R : Rules) : Nat → Nat → Prop
  | self (t : Nat) : FirstIn R t t
  | rule {r : Rule} {t : Nat} : r ∈ R → FirstIn R r.rhs0 t → FirstIn R r.lhs t

/-- `t` can follow `A`. -/
inductive FollowIn (R : Rules) : Nat → Nat → Prop
  | inside {r : Rule} {C t : Nat} : r ∈ R → r.rhs1 = some C → FirstIn R C t → FollowIn R r.rhs0 t
  | last {r : Rule} {C t : Nat} : r ∈ R → r.rhs1 = some C → FollowIn R r.lhs t → FollowIn R C t
  | unary {r : Rule} {t : Nat} : r ∈ R → r.rhs1 = none → FollowIn R r.lhs t → FollowIn R r.rhs0 t

/-- The FOLLOW sets of the crate contain nothing else than what the rules give. -/
def Textbook (X : CfgCrate) : Prop := ∀ c, ∀ p ∈ X.followSets c, ∀ t ∈ p.2, FollowIn (rulesOf c) p.1 t

/-- No rule is out of reach. -/
def Reached (R : Rules) (start : Nat) : Prop := ∀ r ∈ R, ∃ α β, Derives R start (α ++ r.lhs :: β)

end Gearley.Spec
