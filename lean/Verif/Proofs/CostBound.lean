import Mathlib.Algebra.BigOperators.Group.Finset.Piecewise
import Mathlib.Algebra.BigOperators.Ring.Finset
import Mathlib.Algebra.Ring.Nat
import Verif.Proofs.Cost

/-! # Bounds on the number of forest operations at one position -/

namespace Gearley
open Gearley.Spec
variable {σ ν : Type}

/-- Items of set `o` that wait for `A`. -/
def wcount (R : Rules) (S : List (List TItem)) (o A : Nat) : Nat :=
  (S[o]?.getD []).countP fun it => decide (rhs1Of R it.dot = some A)

/-- Rules that begin with `A`. -/
def ucount (R : Rules) (A : Nat) : Nat := R.countP fun r => decide (r.rhs0 = A)

theorem countP_split {α : Type} (p q : α → Bool) (l : List α) :
    (l.countP fun a => p a && q a) + (l.countP fun a => p a && !q a) = l.countP p := by
  induction l with
  | nil => rfl
  | cons a l ih =>
    simp only [List.countP_cons]
    cases p a <;> cases q a <;> simp <;> omega

theorem trans_length (R : Rules) (root : Nat → Nat) (A : Nat) :
    (binTrans R root A).length + (unTrans R root A).length = ucount R A := by
  simp only [binTrans, unTrans, List.length_map, ← List.countP_eq_length_filter]
  have h := countP_split (fun p : Rule × Nat => decide (p.1.rhs0 = A)) (fun p => p.1.rhs1.isSome) R.zipIdx
  simp only [Option.not_isSome] at h
  rw [h, ucount]
  have : R = R.zipIdx.map (·.1) := by simp
  conv_rhs => rw [this]
  rw [List.countP_map]
  rfl

theorem countP_forall₂ {α β : Type} {P : α → β → Prop} {p : α → Bool} {q : β → Bool} {l : List α} {m : List β}
    (h : List.Forall₂ P l m) (hpq : ∀ a b, P a b → p a = q b) : l.countP p = m.countP q := by
  induction h with
  | nil => rfl
  | cons h _ ih => simp only [List.countP_cons, ih, hpq _ _ h]

section
variable {R : Rules} {root : Nat → Nat} {S : List (List TItem)} {cur : List TItem}

theorem symCost_le {E : Env σ ν} (hg : GrammarOK E.g R root) {m : Vec2d (Item ν)} {P : Item ν → TItem → Prop}
    (hP : ∀ a b, P a b → a.dot = b.dot) (hv : VRel P m (Vec2d.ofSets (S ++ [cur])))
    (hS : ∀ l ∈ S, ∀ it ∈ l, ∃ r, R[it.dot]? = some r) {o A k : Nat} (ho : o < S.length)
    (hA : A < E.g.syms + E.g.gensyms) (h : Rec.SymCost E m o A k) : k ≤ 2 * wcount R S o A + ucount R A := by
  have ht := trans_length R root A
  rcases h with rfl | ⟨h1, b, u, h2, rfl⟩ | ⟨h1, set, items, comps, h2, h3, h4, h5, rfl⟩
  · omega
  · obtain ⟨b', u', h3, h4, h5⟩ := hg.gens A h1 hA
    have := pure_inj_M (h2.symm.trans h3)
    simp only [Prod.mk.injEq] at this
    rw [this.2, h5]; omega
  · rw [hg.comps A h1] at h5
    rw [← pure_inj_M h5, List.length_append]
    have hi := Vec2d.index_eq (S ++ [cur]) o S[o] (by simp; omega) (by
      rw [List.getElem?_append_left ho]; exact List.getElem?_eq_getElem ho)
    have hf : List.Forall₂ P set S[o] := (hv.index (lax := False) o).both h2 hi
    have e1 : items.length ≤ set.countP fun x => decide (rhs1Of R x.dot = some A) := by
      have : items.length = items.countP fun x => decide (rhs1Of R x.dot = some A) := by
        rw [eq_comm, List.countP_eq_length]
        intro x hx
        obtain ⟨i, hi1, hi2⟩ := List.getElem_of_mem (h3.subset hx)
        obtain ⟨y, hy, hxy⟩ : ∃ y ∈ S[o], P x y := by
          have hlen := hf.length_eq
          refine ⟨S[o][i]'(by omega), List.getElem_mem _, ?_⟩
          rw [← hi2]
          exact List.Forall₂.get hf hi1 (by omega)
        obtain ⟨r, hr⟩ := hS _ (List.getElem_mem ho) y hy
        rw [← hP _ _ hxy] at hr
        have := h4 x hx
        rw [hg.getRhs1 _ _ hr] at this
        simp [rhs1Of, hr, pure_inj_M this]
      rw [this]
      exact h3.countP_le
    have e2 : (set.countP fun x => decide (rhs1Of R x.dot = some A)) = wcount R S o A := by
      rw [wcount, List.getElem?_eq_getElem ho, Option.getD_some]
      exact countP_forall₂ hf fun a b hab => by rw [hP _ _ hab]
    omega

/-- What a group may cost. -/
def groupCost (R : Rules) (S : List (List TItem)) (p : Nat × Nat) : Nat := 2 + (2 * wcount R S p.1 p.2 + ucount R p.2)

theorem ok_rules {c : EC} (hc : c.OK) : ∀ l ∈ c.S, ∀ it ∈ l, ∃ r, c.R[it.dot]? = some r := by
  intro l hl it hit
  obtain ⟨A, B, C, h⟩ := (hc.sets l hl).binary it hit
  exact ⟨_, h⟩

/-- The completion loop costs as much as its groups. -/
theorem groups_cost {E : Env σ ν} (hleo : E.leo = false) {s s' : Rec (σ × Nat) ν} {l : List (Nat × Nat)}
    (h : Rec.Groups E.counting s l s') : ∀ {t : TRec} {c : EC} {scans Fd popped cur},
    c.g = E.g → c.la = E.lookahead → c.sorter = E.sorter → c.OK → c.Mid scans t Fd popped cur →
    (laxSim E.counting.F treeForest).RIdle () s t →
    (∀ p ∈ l, p.1 < c.S.length ∧ p.2 < c.g.syms + c.g.gensyms) ∧ s'.cost ≤ s.cost + (l.map (groupCost c.R c.S)).sum := by
  have henv : E.counting = FSim.env E.g E.lookahead false E.sorter E.counting.F := by
    simp only [FSim.env, Env.counting, hleo]
  induction h with
  | done h1 => intro t c scans Fd popped cur _ _ _ _ _ _; simp
  | @next s s1 s2 o A l h1 h2 _ ih =>
    intro t c scans Fd popped cur e1 e2 e3 hc hm hr
    have hd : DotsOK c.g fun _ => True := ⟨fun _ _ _ _ _ => trivial, fun _ _ _ _ _ => trivial, fun _ _ _ _ _ => trivial⟩
    have hst := EC.Mid.step hc hm
    obtain ⟨r, h3, h4⟩ := hst
    have h3' := h3
    unfold Rec.completeStep at h3
    obtain ⟨x, h5, h6⟩ := bind_eq_pure h3
    have h1' := h1
    have h2' := h2
    rw [henv, ← e1, ← e2, ← e3] at h1' h2'
    have hx := pure_inj_M (h1'.symm.trans ((FSim.nextSum_rel (g := c.g) (la := c.la) (leo := false) (so := c.sorter) hr).trans h5))
    subst hx
    simp only at h6
    obtain ⟨t1, h7, h8⟩ := bind_eq_pure h6
    have := pure_inj_M h8
    subst this
    obtain ⟨_, _, _, _, Fd', popped', cur', hm', _⟩ := h4
    have hr' := (FSim.completeEntireSum_rel (g := c.g) (la := c.la) (leo := false) (so := c.sorter) hd hr o A h1').both h2' h7
    obtain ⟨_, _, hr'⟩ := hr'
    obtain ⟨hb, hcost⟩ := ih e1 e2 e3 hc hm' hr'
    -- the group is that of a queued item
    obtain ⟨ho, hA⟩ : o < c.S.length ∧ A < c.g.syms + c.g.gensyms := by
      unfold Rec.nextSum at h5
      cases hp : Heap.peek t.complete with
      | none => rw [hp] at h5; exact absurd (pure_inj_M h5) (by simp)
      | some top =>
        rw [hp] at h5
        obtain ⟨_, hol, r, hrr⟩ := hm.hitems top (List.mem_of_getElem? hp)
        have hlhs : c.E.g.getLhs top.dot = pure r.lhs := hc.gok.getLhs _ _ hrr
        simp only [hlhs, pure_bind, pure_inj_M_iff, Option.some.injEq, Prod.mk.injEq] at h5
        obtain ⟨rfl, rfl⟩ := h5
        exact ⟨hol, hc.gok.lhs_lt r (List.mem_of_getElem? hrr)⟩
    refine ⟨?_, ?_⟩
    · intro p hp
      rcases List.mem_cons.1 hp with rfl | hp
      · exact ⟨ho, hA⟩
      · exact hb p hp
    · obtain ⟨k, h9, h10⟩ := Rec.completeEntireSum_cost hleo h2
      have hmed := hr.medial
      rw [hm.medial] at hmed
      have := symCost_le (E := E) (e1 ▸ hc.gok) (fun a b hab => hab.1) hmed (ok_rules hc) ho (e1 ▸ hA) h9
      simp only [List.map_cons, List.sum_cons, groupCost] at *
      omega

theorem sum_count_le {α : Type} (f : α → Option Nat) (N : Nat) (l : List α) :
    ∑ A ∈ Finset.range N, (l.countP fun x => decide (f x = some A)) ≤ l.length := by
  induction l with
  | nil => simp
  | cons x l ih =>
    simp only [List.countP_cons, Finset.sum_add_distrib, List.length_cons]
    have : ∑ A ∈ Finset.range N, (if decide (f x = some A) = true then 1 else 0) ≤ 1 := by
      cases hx : f x with
      | none => simp
      | some a =>
        simp only [Option.some.injEq, decide_eq_true_eq, Finset.sum_ite_eq, Finset.mem_range]
        split <;> omega
    omega

theorem sum_ucount_le (R : Rules) (N : Nat) : ∑ A ∈ Finset.range N, ucount R A ≤ R.length := by
  have := sum_count_le (fun r : Rule => some r.rhs0) N R
  simpa only [Option.some.injEq, ucount] using this

theorem sum_wcount_le (R : Rules) (S : List (List TItem)) (o N : Nat) :
    ∑ A ∈ Finset.range N, wcount R S o A ≤ (S[o]?.getD []).length := sum_count_le _ _ _

/-- Cost of different groups. -/
theorem sum_groupCost_le (R : Rules) (S : List (List TItem)) {L N K : Nat} {l : List (Nat × Nat)} (hnd : l.Nodup)
    (hl : ∀ p ∈ l, p.1 < L ∧ p.2 < N) (hK : ∀ o, o < L → (S[o]?.getD []).length ≤ K) :
    (l.map (groupCost R S)).sum ≤ L * (2 * N + 2 * K + R.length) := by
  rw [← List.sum_toFinset _ hnd]
  have hsub : l.toFinset ⊆ Finset.range L ×ˢ Finset.range N := by
    intro p hp
    rw [List.mem_toFinset] at hp
    simpa using hl p hp
  refine (Finset.sum_le_sum_of_subset hsub).trans ?_
  rw [Finset.sum_product]
  refine (Finset.sum_le_card_nsmul _ _ (2 * N + 2 * K + R.length) ?_).trans ?_
  · intro o ho
    simp only [groupCost, Finset.sum_add_distrib, Finset.sum_const, Finset.card_range, ← Finset.mul_sum]
    have h1 := sum_wcount_le R S o N
    have h2 := sum_ucount_le R N
    have h3 := hK o (Finset.mem_range.1 ho)
    simp only [Nat.nsmul_eq_mul]
    omega
  · simp

/-- Cost of different tokens. -/
theorem sum_tokenCost_le (R : Rules) (S : List (List TItem)) {o N K : Nat} {l : List Nat} (hnd : l.Nodup)
    (hl : ∀ A ∈ l, A < N) (hK : (S[o]?.getD []).length ≤ K) :
    (l.map fun A => 1 + (2 * wcount R S o A + ucount R A)).sum ≤ N + 2 * K + R.length := by
  rw [← List.sum_toFinset _ hnd]
  have hsub : l.toFinset ⊆ Finset.range N := by
    intro p hp
    rw [List.mem_toFinset] at hp
    simpa using hl p hp
  refine (Finset.sum_le_sum_of_subset hsub).trans ?_
  simp only [Finset.sum_add_distrib, Finset.sum_const, Finset.card_range, ← Finset.mul_sum, Nat.nsmul_eq_mul]
  have h1 := sum_wcount_le R S o N
  have h2 := sum_ucount_le R N
  omega

/-- A set without repeated items is small. -/
theorem set_length_le {R : Rules} {l : List TItem} {L : Nat} (hnd : (l.map dotOrigin).Nodup)
    (hr : ∀ it ∈ l, ∃ r, R[it.dot]? = some r) (ho : ∀ it ∈ l, it.origin < L) : l.length ≤ R.length * L := by
  have h1 : (l.map dotOrigin).toFinset ⊆ Finset.range R.length ×ˢ Finset.range L := by
    intro p hp
    rw [List.mem_toFinset, List.mem_map] at hp
    obtain ⟨it, hit, rfl⟩ := hp
    obtain ⟨r, hr⟩ := hr it hit
    simp only [dotOrigin, Finset.mem_product, Finset.mem_range]
    exact ⟨(List.getElem?_eq_some_iff.1 hr).1, ho it hit⟩
  have h2 := Finset.card_le_card h1
  rw [List.toFinset_card_of_nodup hnd, List.length_map, Finset.card_product, Finset.card_range, Finset.card_range] at h2
  exact h2

/-- Scanning costs as much as its tokens. -/
theorem scanAll_cost {E : Env σ ν} (hleo : E.leo = false) {g : DefaultGrammar} (hgE : g = E.g) (hg : GrammarOK g R root)
    {t : TRec} (h : Rest g R t S) (hlen : S.length < 2 ^ 64) {s : Rec (σ × Nat) ν}
    (hr : (laxSim E.counting.F treeForest).RIdle () s t) {toks : List (Nat × Nat)}
    (ht : ∀ p ∈ toks, p.1 < g.syms + g.gensyms) {s' : Rec (σ × Nat) ν}
    (hs : Rec.scanAll E.counting s.beginEarleme toks = pure s') :
    s'.cost ≤ s.cost + ((toks.map (·.1)).map fun A => 1 + (2 * wcount R S (S.length - 1) A + ucount R A)).sum := by
  subst hgE
  have henv : E.counting = FSim.env E.g E.lookahead false E.sorter E.counting.F := by
    simp only [FSim.env, Env.counting, hleo]
  have hd : DotsOK E.g fun _ => True := ⟨fun _ _ _ _ _ => trivial, fun _ _ _ _ _ => trivial, fun _ _ _ _ _ => trivial⟩
  have hc := h.ok hg (la := E.lookahead) (sorter := E.sorter)
  induction toks using List.reverseRecOn generalizing s' with
  | nil => rw [← pure_inj_M hs]; simp [Rec.beginEarleme, Rec.cost]
  | append_singleton pre p ih =>
    unfold Rec.scanAll at hs
    rw [List.foldlM_append] at hs
    obtain ⟨s1, h1, h2⟩ := bind_eq_pure hs
    rw [List.foldlM_cons] at h2
    obtain ⟨s2, h2a, h3⟩ := bind_eq_pure h2
    have h3 := pure_inj_M h3
    subst h3
    have hpre : ∀ q ∈ pre, q.1 < E.g.syms + E.g.gensyms := fun q hq => ht q (List.mem_append_left _ hq)
    have hi := ih h1 hpre
    -- the state after the first tokens
    obtain ⟨t1, ht1, scans, cur, hmid⟩ := mid_of_rest hg (la := E.lookahead) (sorter := E.sorter) h hlen pre hpre
    have h1' : Rec.scanAll (FSim.env E.g E.lookahead false E.sorter E.counting.F) s.beginEarleme pre = pure s1 := by
      rw [← henv]; exact h1
    have hrel := (FSim.scanAll_rel (S := laxSim E.counting.F treeForest) (g := E.g) (la := E.lookahead) (leo := false)
      (so := E.sorter) hd (FSim.begin_rel hr) (toks := pre) (fun _ _ => trivial)).both h1' ht1
    obtain ⟨_, _, hrel⟩ := hrel
    obtain ⟨k, h4, h5⟩ := Rec.scan_cost hleo h2a
    have hmed := hrel.medial
    rw [hmid.medial] at hmed
    have hpos := h.pos
    have hear : s1.earleme = S.length - 1 := by
      rw [Rec.earleme, hmed.len, Vec2d.len_eq]
      simp only [List.length_append, List.length_singleton, wrappingSub2]
      rw [if_pos (by simp [ctxOf]; omega)]
      simp [ctxOf]
    rw [hear] at h4
    have := symCost_le (E := E) (S := S) hg (fun a b hab => hab.1) hmed (ok_rules hc) (by omega)
      (ht p (by simp)) h4
    simp only [List.map_append, List.sum_append, List.map_cons, List.map_nil, List.sum_cons, List.sum_nil]
    omega

end
end Gearley
