import Verif.Proofs.Groups
import Mathlib.Algebra.BigOperators.Group.Finset.Basic
import Mathlib.Algebra.Order.BigOperators.Group.Finset

/-! # One-symbol rules numbered the wrong way: a lower bound for the number of groups -/

namespace Gearley
open Gearley.Spec

namespace EC
variable {c : EC}

/-- `U A` are symbols above `A` that are reached from `A` by a one-symbol rule in set `o`. -/
structure Climbs (c : EC) (o : Nat) (U : Nat → Finset Nat) : Prop where
  rule : ∀ A, ∀ B ∈ U A, ∃ d : Nat, c.R[d]? = some (Rule.mk B A none) ∧ c.pm.bit o (c.root B) = true
  gate : ∀ A, ∀ B ∈ U A, gate c.g c.pm o A = true
  up : ∀ A, ∀ B ∈ U A, A < B

/-- The completion of `A` adds an item for each symbol in `U A`. -/
theorem Climbs.new {o : Nat} {U : Nat → Finset Nat} (h : c.Climbs o U) (hh : c.hint = none) {A B : Nat} (hB : B ∈ U A)
    (N : List PTree) :
    ∃ it ∈ heapNew c.g c.R c.root c.la c.hint c.pm c.S o A N, keyOf c.R it = (o, B) := by
  obtain ⟨d, hd, hb⟩ := h.rule A B hB
  refine ⟨⟨d, o, N⟩, ?_, by simp [keyOf, lhsOf_eq hd]⟩
  rw [heapNew, if_pos (h.gate A B hB)]
  refine List.mem_append_right _ (List.mem_map.2 ⟨⟨c.root B, d, true⟩, List.mem_filter.2 ⟨?_, ?_⟩, rfl⟩)
  · exact mem_unTrans.2 ⟨_, hd, rfl, rfl, rfl, rfl⟩
  · simp [hb, okP, hh]

/-- A weight that is at most one more than the total weight of the symbols above bounds the number of groups that are
completed. -/
theorem groups_many (hc : c.OK) (hh : c.hint = none) {o : Nat} {U : Nat → Finset Nat} (hU : c.Climbs o U) {p : Nat → Nat}
    (hp : ∀ A, p A ≤ 1 + ∑ B ∈ U A, p B) {s : TRec} {l : List (Nat × Nat)} {s' : TRec}
    (hgr : Rec.Groups c.E s l s') : ∀ {scans Fd popped cur}, c.Mid scans s Fd popped cur → ∀ K : Finset Nat,
    (∀ A ∈ K, ∃ it ∈ s.complete, keyOf c.R it = (o, A)) → ∑ A ∈ K, p A ≤ l.length := by
  induction hgr with
  | @done s h1 =>
    intro scans Fd popped cur h K hK
    have : s.complete = [] := by
      unfold Rec.nextSum at h1
      cases hp : Heap.peek s.complete with
      | none => simpa [Heap.peek] using hp
      | some top =>
        rw [hp] at h1
        obtain ⟨_, _, r, hrr⟩ := h.hitems top (List.mem_of_getElem? hp)
        have hlhs : c.E.g.getLhs top.dot = pure r.lhs := hc.gok.getLhs _ _ hrr
        simp only [hlhs, pure_bind, pure_inj_M_iff] at h1
        cases h1
    have : K = ∅ := by
      refine Finset.eq_empty_of_forall_notMem fun A hA => ?_
      obtain ⟨it, hit, _⟩ := hK A hA
      rw [this] at hit
      cases hit
    simp [this]
  | @next s s1 s2 o1 A1 l h1 h2 _ ih =>
    intro scans Fd popped cur h K hK
    have hst : Rec.completeStep c.E s = pure (.inl s1) := by
      unfold Rec.completeStep
      rw [h1, pure_bind]
      simp only [h2, pure_bind]
    obtain ⟨G, rest, o', A', Fd', popped', cur', hm, hol, hG, hperm, hkey, hrest, hperm', _, _⟩ := (Mid.step hc h).of_eq hst
    have stay : ∀ A ∈ K, (o, A) ≠ (o', A') → ∃ it ∈ rest, keyOf c.R it = (o, A) := by
      intro A hA hne
      obtain ⟨it, hit, hk⟩ := hK A hA
      rcases List.mem_append.1 (hperm.mem_iff.1 hit) with h3 | h3
      · exact absurd (hk.symm.trans (hkey it h3)) hne
      · exact ⟨it, h3, hk⟩
    rw [List.length_cons]
    by_cases hin : o = o' ∧ A' ∈ K
    · obtain ⟨rfl, hA'⟩ := hin
      have hdis : Disjoint (K.erase A') (U A') := by
        rw [Finset.disjoint_left]
        intro B hB hBU
        obtain ⟨hne, hBK⟩ := Finset.mem_erase.1 hB
        obtain ⟨it, hit, hk⟩ := stay B hBK (by simpa using hne)
        have h3 := hrest it hit
        rw [hk] at h3
        have h4 := hU.up A' B hBU
        simp only [KeyLt] at h3
        omega
      have := ih hm (K.erase A' ∪ U A') (by
        intro B hB
        rcases Finset.mem_union.1 hB with hB | hB
        · obtain ⟨hne, hBK⟩ := Finset.mem_erase.1 hB
          obtain ⟨it, hit, hk⟩ := stay B hBK (by simpa using hne)
          exact ⟨it, hperm'.mem_iff.2 (List.mem_append_left _ hit), hk⟩
        · obtain ⟨it, hit, hk⟩ := hU.new hh hB (G.flatMap sumTrees)
          exact ⟨it, hperm'.mem_iff.2 (List.mem_append_right _ hit), hk⟩)
      rw [Finset.sum_union hdis] at this
      have h3 := Finset.add_sum_erase K p hA'
      have h4 := hp A'
      omega
    · have := ih hm K (by
        intro A hA
        obtain ⟨it, hit, hk⟩ := stay A hA (by
          intro he
          cases he
          exact hin ⟨rfl, hA⟩)
        exact ⟨it, hperm'.mem_iff.2 (List.mem_append_left _ hit), hk⟩)
      omega

end EC
end Gearley
