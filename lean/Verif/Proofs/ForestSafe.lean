import Verif.Spec.Setup
import Verif.Model.CompactBocage
import Verif.Proofs.Effects

/-!
# The bocages do not panic when used by the recognizer
-/

namespace Gearley
open Gearley.Spec

/-- The simple bocage is safe. -/
def simpleSafe : SafeForest Simple.forest (fun _ => True) (fun _ _ => True) where
  γ := Unit
  le _ _ := True
  refl _ := trivial
  trans _ _ := trivial
  Valid _ _ := True
  mono _ _ := trivial
  Idle _ b := b.summandCount = 0
  Summing _ k b := b.summandCount = k ∧ k ≤ b.graph.length
  beginSum h := ⟨_, rfl, (), trivial, h, Nat.zero_le _⟩
  pushSummand h _ _ := ⟨_, rfl, (), trivial, by simp [Simple.Bocage.pushSummand, h.1], by
    simp [Simple.Bocage.pushSummand, h.2]⟩
  sum {w k s lhs o} h hk := by
    obtain ⟨h1, h2⟩ := h
    show ∃ s' n, s.sum lhs = pure (s', n) ∧ _
    unfold Simple.Bocage.sum
    match k, hk with
    | 1, _ =>
      rw [h1]
      exact ⟨_, _, rfl, (), trivial, rfl, trivial⟩
    | m + 2, _ =>
      rw [h1]
      have hs : subM s.graph.length (m + 2) = pure (s.graph.length - (m + 2)) := if_pos h2
      have hi : s.graph.length - (m + 2) < s.graph.length := by omega
      have hset : setM (s.graph ++ [s.graph[s.graph.length - (m + 2)]]) (s.graph.length - (m + 2)) (Simple.Node.sum lhs (u32 (m + 2))) =
          pure _ := if_pos (by simp; omega)
      simp only [hs, pure_bind, indexM_lt hi, hset]
      exact ⟨_, _, rfl, (), trivial, rfl, trivial⟩
  product h _ _ := ⟨_, _, rfl, (), trivial, h, trivial⟩
  leaf h _ := ⟨_, _, rfl, (), trivial, h, trivial⟩

/-- The compact bocage is safe. -/
def compactSafe : SafeForest Compact.forest (fun _ => True) (fun _ _ => True) where
  γ := Unit
  le _ _ := True
  refl _ := trivial
  trans _ _ := trivial
  Valid _ _ := True
  mono _ _ := trivial
  Idle _ _ := True
  Summing _ _ b := b.sumStart.isSome
  beginSum _ := ⟨_, rfl, (), trivial, rfl⟩
  pushSummand h _ _ := ⟨_, rfl, (), trivial, h⟩
  sum {w k s lhs o} h _ := by
    show ∃ s' n, s.sum = pure (s', n) ∧ _
    unfold Compact.Bocage.sum
    obtain ⟨x, hx⟩ := Option.isSome_iff_exists.1 h
    rw [hx]
    show ∃ s' n, (pure x >>= _) = pure (s', n) ∧ _
    rw [pure_bind]
    dsimp only
    split
    · exact ⟨_, _, rfl, (), trivial, trivial, trivial⟩
    · exact ⟨_, _, rfl, (), trivial, trivial, trivial⟩
  product _ _ _ := ⟨_, _, rfl, (), trivial, trivial, trivial⟩
  leaf _ _ := ⟨_, _, rfl, (), trivial, trivial, trivial⟩

theorem simple_safeStart {b : Simple.Bocage} (hb : b.summandCount = 0) (dots syms : Nat) : SafeStart Simple.forest b dots syms :=
  ⟨_, _, simpleSafe, (), hb, fun _ _ => trivial, fun _ _ _ _ => trivial⟩

theorem compact_safeStart (b : Compact.Bocage) (dots syms : Nat) : SafeStart Compact.forest b dots syms :=
  ⟨_, _, compactSafe, (), trivial, fun _ _ => trivial, fun _ _ _ _ => trivial⟩

/-- A new bocage is between sums. -/
theorem Simple.new_summandCount {info : ForestInfo} {b : Simple.Bocage} (h : Simple.Bocage.new info = pure b) :
    b.summandCount = 0 := by
  unfold Simple.Bocage.new at h
  obtain ⟨g, _, h⟩ := bind_eq_pure h
  cases pure_inj_M h
  rfl

end Gearley
