import Verif.Model.Recognizer

/-!
# Specification: forests that do not panic

A forest may have preconditions: handles must have been returned by it, `push_summand` and `sum` only occur inside a sum
with at least one summand, and so on. `SafeForest` says that a forest used in this way never panics. `γ` is a growing
notion of "what exists so far".
-/

namespace Gearley

structure SafeForest {σ ν : Type} (F : ForestOps σ ν) (okDot : Nat → Prop) (okLeaf : Nat → Nat → Prop) where
  γ : Type
  le : γ → γ → Prop
  refl : ∀ w, le w w
  trans : ∀ {a b c}, le a b → le b c → le a c
  /-- the handle refers to an existing node -/
  Valid : γ → ν → Prop
  mono : ∀ {w w' a}, le w w' → Valid w a → Valid w' a
  /-- forest states between sums -/
  Idle : γ → σ → Prop
  /-- forest states inside a sum with `k` summands -/
  Summing : γ → Nat → σ → Prop
  beginSum : ∀ {w s}, Idle w s → ∃ s', F.beginSum s = pure s' ∧ ∃ w', le w w' ∧ Summing w' 0 s'
  pushSummand : ∀ {w k s d o a}, Summing w k s → okDot d → Valid w a →
    ∃ s', F.pushSummand s ⟨d, o, a⟩ = pure s' ∧ ∃ w', le w w' ∧ Summing w' (k + 1) s'
  sum : ∀ {w k s lhs o}, Summing w k s → 0 < k →
    ∃ s' n, F.sum s lhs o = pure (s', n) ∧ ∃ w', le w w' ∧ Idle w' s' ∧ Valid w' n
  product : ∀ {w s a c}, Idle w s → Valid w a → Valid w c →
    ∃ s' n, F.product s a c = pure (s', n) ∧ ∃ w', le w w' ∧ Idle w' s' ∧ Valid w' n
  leaf : ∀ {w s sym pos val}, Idle w s → okLeaf sym val →
    ∃ s' n, F.leaf s sym pos val = pure (s', n) ∧ ∃ w', le w w' ∧ Idle w' s' ∧ Valid w' n

/-- The null forest is safe. -/
def nullSafe : SafeForest nullForest (fun _ => True) (fun _ _ => True) where
  γ := Unit
  le _ _ := True
  refl _ := trivial
  trans _ _ := trivial
  Valid _ _ := True
  mono _ _ := trivial
  Idle _ _ := True
  Summing _ _ _ := True
  beginSum _ := ⟨(), rfl, (), trivial, trivial⟩
  pushSummand _ _ _ := ⟨(), rfl, (), trivial, trivial⟩
  sum _ _ := ⟨(), (), rfl, (), trivial, trivial, trivial⟩
  product _ _ _ := ⟨(), (), rfl, (), trivial, trivial, trivial⟩
  leaf _ _ := ⟨(), (), rfl, (), trivial, trivial, trivial⟩

end Gearley
