import Verif.Spec.Setup

/-!
# Specification: counting the operations of a forest
-/

namespace Gearley.Spec
open Gearley
variable {σ ν : Type}

/-- Any forest with a counter of the calls made by the recognizer. -/
def counting (F : ForestOps σ ν) : ForestOps (σ × Nat) ν where
  beginSum s := do
    let f ← F.beginSum s.1
    pure (f, s.2 + 1)
  pushSummand s item := do
    let f ← F.pushSummand s.1 item
    pure (f, s.2 + 1)
  sum s lhs origin := do
    let r ← F.sum s.1 lhs origin
    pure ((r.1, s.2 + 1), r.2)
  product s a b := do
    let r ← F.product s.1 a b
    pure ((r.1, s.2 + 1), r.2)
  leaf s token pos value := do
    let r ← F.leaf s.1 token pos value
    pure ((r.1, s.2 + 1), r.2)
  nulling s token := F.nulling s.1 token

/-- The same environment with a counter. -/
def _root_.Gearley.Env.counting (E : Env σ ν) : Env (σ × Nat) ν :=
  { g := E.g, F := Spec.counting E.F, lookahead := E.lookahead, leo := E.leo, sorter := E.sorter }

/-- Forget the counter. -/
def _root_.Gearley.Rec.uncount (s : Rec (σ × Nat) ν) : Rec σ ν :=
  { forest := s.forest.1, lookahead := s.lookahead, predicted := s.predicted, medial := s.medial, complete := s.complete }

/-- Every operation of the forest adds at most `K` to the measure `m`. -/
structure Grows (F : ForestOps σ ν) (m : σ → Nat) (K : Nat) : Prop where
  beginSum : ∀ {s s'}, F.beginSum s = pure s' → m s' ≤ m s + K
  pushSummand : ∀ {s s' it}, F.pushSummand s it = pure s' → m s' ≤ m s + K
  sum : ∀ {s r lhs o}, F.sum s lhs o = pure r → m r.1 ≤ m s + K
  product : ∀ {s r a b}, F.product s a b = pure r → m r.1 ≤ m s + K
  leaf : ∀ {s r t p v}, F.leaf s t p v = pure r → m r.1 ≤ m s + K


end Gearley.Spec
