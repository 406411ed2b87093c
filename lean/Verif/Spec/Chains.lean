import Verif.Spec.Grammar

/-! # Chains of one-symbol rules -/

namespace Gearley.Spec

/-- The rules `A ::= B` of `A`. -/
def unaryRules (R : Rules) (A : Nat) : Rules := R.filter fun r => decide (r.lhs = A) && r.rhs1.isNone

/-- `p A` is not less than the number of chains `A ::= B`, `B ::= C`, ... of one-symbol rules that begin with `A`; the empty chain
counts as well. -/
def ChainBound (R : Rules) (p : Nat → Nat) : Prop := ∀ A, 1 + ((unaryRules R A).map fun r => p r.rhs0).sum ≤ p A

end Gearley.Spec
