import Verif.Spec.Processed
import Verif.Proofs.BitMatrix

/-! # `find_gensyms` computes the set of generated symbols -/

namespace Gearley
open Gearley.Spec Build

/-- Two-symbol rules for `A` counted by the first component. -/
def cntL (l : List CfgRule) (A : Nat) : Nat :=
  l.countP fun r => r.rhs.length = 2 ∧ r.rhs[0]? ≠ some r.lhs ∧ r.lhs = A

/-- Two-symbol rules that start with `A`, counted by the second component. -/
def cntR (l : List CfgRule) (A : Nat) : Nat :=
  l.countP fun r => r.rhs.length = 2 ∧ r.rhs[0]? ≠ some r.lhs ∧ r.rhs[0]? = some A

/-- Later occurrences of `A`. -/
def cntT (l : List CfgRule) (A : Nat) : Nat := (l.flatMap (·.rhs.drop 1)).count A

/-- The table of counts. -/
def OccIs (n : Nat) (occ : List (Nat × Nat × Nat)) (f g h : Nat → Nat) : Prop :=
  occ.length = n ∧ ∀ A, A < n → occ[A]? = some (f A, g A, h A)

theorem occ_later {n : Nat} {occ : List (Nat × Nat × Nat)} {f g h : Nat → Nat} (ho : OccIs n occ f g h) (l : List Nat)
    (hl : ∀ s ∈ l, s < n) : Returns (l.foldlM (fun occ sym => do
      let a ← indexM occ sym
      setM occ sym (a.1, a.2.1, a.2.2 + 1)) occ) fun occ' => OccIs n occ' f g (fun A => h A + l.count A) := by
  refine (foldlM_returns (fun p occ' => OccIs n occ' f g (fun A => h A + p.count A)) (by simpa using ho) ?_)
  rintro p a s b rfl ⟨hb1, hb2⟩
  have ha : a < n := hl a (by simp)
  rw [indexM_eq (hb2 a ha), pure_bind, setM_eq (by omega)]
  refine returns_pure ⟨by simpa using hb1, ?_⟩
  intro A hA
  rw [List.getElem?_set]
  by_cases h : a = A
  · subst h; simp [hb1, ha]; omega
  · simp [h, hb2 A hA]

theorem countRule_spec {n : Nat} {occ : List (Nat × Nat × Nat)} {l : List CfgRule} {r : CfgRule}
    (ho : OccIs n occ (cntL l) (cntR l) (cntT l)) (hlhs : r.lhs < n) (hr : ∀ s ∈ r.rhs, s < n) :
    Returns (countRule occ r) fun occ' => OccIs n occ' (cntL (l ++ [r])) (cntR (l ++ [r])) (cntT (l ++ [r])) := by
  unfold countRule
  have hT : cntT (l ++ [r]) = fun A => cntT l A + (r.rhs.drop 1).count A := by
    funext A; simp [cntT]
  refine returns_bind ?_
  have hdone : ∀ occ', OccIs n occ' (cntL (l ++ [r])) (cntR (l ++ [r])) (cntT l) → Returns ((r.rhs.drop 1).foldlM (fun occ sym => do
      let a ← indexM occ sym
      setM occ sym (a.1, a.2.1, a.2.2 + 1)) occ') fun occ' => OccIs n occ' (cntL (l ++ [r])) (cntR (l ++ [r])) (cntT (l ++ [r])) := by
    intro occ' h
    rw [hT]
    exact occ_later h _ fun s hs => hr s (List.mem_of_mem_drop hs)
  split
  · next h2 =>
    obtain ⟨a, b, hab⟩ : ∃ a b, r.rhs = [a, b] := by
      match hm : r.rhs, h2 with
      | [a, b], _ => exact ⟨a, b, rfl⟩
    have ha : a < n := hr a (by simp [hab])
    rw [indexM_eq (a := a) (by simp [hab]), pure_bind]
    split
    · next hne =>
      rw [indexM_eq (ho.2 _ hlhs), pure_bind, setM_eq (by rw [ho.1]; exact hlhs), pure_bind]
      have hv : (occ.set r.lhs (cntL l r.lhs + 1, cntR l r.lhs, cntT l r.lhs))[a]? = some (cntL l a, cntR l a, cntT l a) := by
        rw [List.getElem?_set_ne hne]; exact ho.2 a ha
      dsimp only
      rw [indexM_eq hv, pure_bind, setM_eq (by simp [ho.1, ha])]
      refine returns_pure (hdone _ ⟨by simp [ho.1], ?_⟩)
      intro A hA
      have hL : cntL (l ++ [r]) A = cntL l A + if r.lhs = A then 1 else 0 := by
        simp [cntL, List.countP_append, List.countP_cons, hab, Ne.symm hne]
      have hR : cntR (l ++ [r]) A = cntR l A + if a = A then 1 else 0 := by
        simp [cntR, List.countP_append, List.countP_cons, hab, Ne.symm hne]
      rw [hL, hR]
      by_cases h1 : a = A
      · subst h1
        rw [List.getElem?_set_self (by simp [ho.1, ha])]
        simp [hne]
      · rw [List.getElem?_set_ne h1]
        by_cases h3 : r.lhs = A
        · subst h3
          rw [List.getElem?_set_self (by rw [ho.1]; exact hlhs)]
          simp [h1]
        · rw [List.getElem?_set_ne h3, ho.2 A hA]; simp [h1, h3]
    · next hne =>
      refine returns_pure (hdone _ ⟨ho.1, ?_⟩)
      intro A hA
      have hL : cntL (l ++ [r]) A = cntL l A := by
        simp at hne
        simp [cntL, List.countP_append, List.countP_cons, hab, hne]
      have hR : cntR (l ++ [r]) A = cntR l A := by
        simp at hne
        simp [cntR, List.countP_append, List.countP_cons, hab, hne]
      rw [hL, hR]; exact ho.2 A hA
  · next h2 =>
    refine returns_pure (hdone _ ⟨ho.1, ?_⟩)
    intro A hA
    have hL : cntL (l ++ [r]) A = cntL l A := by
      simp [cntL, List.countP_append, List.countP_cons, h2]
    have hR : cntR (l ++ [r]) A = cntR l A := by
      simp [cntR, List.countP_append, List.countP_cons, h2]
    rw [hL, hR]; exact ho.2 A hA

theorem generated_iff (c : Cfg) (A : Nat) : Generated c A ↔
    ((cntL c.rules A, cntR c.rules A, cntT c.rules A) = (1, 1, 0) ∧ ∃ r ∈ c.rules, r.lhs = A ∧ r.origin = none) := by
  unfold Generated
  simp only [Prod.mk.injEq, and_assoc]
  refine and_congr Iff.rfl (and_congr Iff.rfl (and_congr ?_ Iff.rfl))
  simp only [cntT, List.count_eq_zero, List.mem_flatMap, not_exists, not_and]

/-- `find_gensyms` returns exactly the generated symbols, for every rule list over `numSyms` symbols. -/
theorem findGensyms_spec (c : Cfg) (hlhs : ∀ r ∈ c.rules, r.lhs < c.numSyms)
    (hrhs : ∀ r ∈ c.rules, ∀ s ∈ r.rhs, s < c.numSyms) :
    findGensyms c = pure ((List.range c.numSyms).map fun A => decide (Generated c A)) := by
  unfold findGensyms
  have h1 : Returns (c.rules.foldlM countRule (List.replicate c.numSyms (0, 0, 0)))
      fun occ => OccIs c.numSyms occ (cntL c.rules) (cntR c.rules) (cntT c.rules) := by
    refine foldlM_returns (fun p occ => OccIs c.numSyms occ (cntL p) (cntR p) (cntT p)) ?_ ?_
    · exact ⟨by simp, fun A hA => by simp [cntL, cntR, cntT, hA]⟩
    · intro p a s b hl hI
      have ha : a ∈ c.rules := by rw [hl]; simp
      exact countRule_spec hI (hlhs a ha) (hrhs a ha)
  obtain ⟨occ, ho, hI⟩ := h1
  rw [ho, pure_bind]
  have h2 : Returns (c.rules.foldlM (fun gens rule => do
      let a ← indexM occ rule.lhs
      if a = (1, 1, 0) ∧ rule.origin = none then setM gens rule.lhs true else pure gens)
      (List.replicate c.numSyms false)) fun gens => gens.length = c.numSyms ∧ ∀ A, A < c.numSyms → gens[A]? =
        some (decide ((cntL c.rules A, cntR c.rules A, cntT c.rules A) = (1, 1, 0) ∧
          ∃ r ∈ c.rules, r.lhs = A ∧ r.origin = none)) := by
    refine foldlM_returns (fun (p : List CfgRule) (gens : List Bool) => gens.length = c.numSyms ∧ ∀ A, A < c.numSyms → gens[A]? =
        some (decide ((cntL c.rules A, cntR c.rules A, cntT c.rules A) = (1, 1, 0) ∧
          ∃ r ∈ p, r.lhs = A ∧ r.origin = none))) ?_ ?_
    · exact ⟨by simp, fun A hA => by simp [hA]⟩
    · rintro p a s b hl ⟨hb1, hb2⟩
      have ha : a ∈ c.rules := by rw [hl]; simp
      rw [indexM_eq (hI.2 _ (hlhs a ha)), pure_bind]
      split
      · next hc =>
        rw [setM_eq (by rw [hb1]; exact hlhs a ha)]
        refine returns_pure ⟨by simp [hb1], fun A hA => ?_⟩
        rw [List.getElem?_set]
        by_cases h : a.lhs = A
        · subst h
          rw [if_pos rfl, if_pos (by rw [hb1]; exact hA)]
          simp only [Option.some.injEq, Bool.true_eq, decide_eq_true_eq]
          exact ⟨hc.1, a, by simp, rfl, hc.2⟩
        · simp [h, hb2 A hA]
      · next hc =>
        refine returns_pure ⟨hb1, fun A hA => ?_⟩
        rw [hb2 A hA]
        simp only [Option.some.injEq, decide_eq_decide, List.mem_append, List.mem_singleton]
        refine and_congr_right fun h => ?_
        constructor
        · rintro ⟨r, hr, h'⟩; exact ⟨r, .inl hr, h'⟩
        · rintro ⟨r, hr | rfl, h'⟩
          · exact ⟨r, hr, h'⟩
          · exact absurd ⟨by rw [h'.1]; exact h, h'.2⟩ hc
  obtain ⟨gens, hg, hl, hb⟩ := h2
  rw [hg]
  congr 1
  apply List.ext_getElem?
  intro A
  by_cases hA : A < c.numSyms
  · rw [hb A hA]
    simp only [List.getElem?_map, List.getElem?_range hA, Option.map_some, Option.some.injEq, decide_eq_decide]
    exact (generated_iff c A).symm
  · rw [List.getElem?_eq_none (by omega), List.getElem?_eq_none (by simp; omega)]

theorem countP_range_ge (n k : Nat) : (List.range n).countP (fun A => decide (k ≤ A)) = n - k := by
  induction n with
  | zero => simp
  | succ n ih =>
    rw [List.range_succ, List.countP_append, ih]
    simp only [List.countP_cons, List.countP_nil]
    split
    · next h => have := of_decide_eq_true h; omega
    · next h => have : ¬ k ≤ n := fun h' => h (decide_eq_true h'); omega

theorem numGensyms_spec {c : Cfg} {syms : Nat} {w : WrappedRoot} {depth : Nat → Nat} (hc : ProcessedOK c syms w depth) :
    numGensyms c = pure (c.numSyms - syms) := by
  unfold numGensyms
  rw [findGensyms_spec c hc.lhs_lt hc.rhs_lt, pure_bind, List.countP_map]
  congr 1
  rw [← countP_range_ge]
  apply List.countP_congr
  intro A hA
  simp [hc.gen A (List.mem_range.1 hA)]

end Gearley
