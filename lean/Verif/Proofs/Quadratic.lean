import Verif.Proofs.CostBound
import Verif.Proofs.Single
import Verif.Proofs.Language
import Mathlib.Data.Finset.Card

/-! # Work at one position when no symbol has two derivation trees over the same part of the input -/

namespace Gearley
open Gearley.Spec
variable {g : DefaultGrammar} {R : Rules} {root : Nat → Nat}

/-- The state after a part of the input, whatever the hints. -/
theorem new_inv_at (hg : GrammarOK g R root) {rank : Nat → Nat} (hrank : EC.Ranked R rank) {steps : List Step} {la sorter}
    (hlen : steps.length < 2 ^ 64) (hok : StepsOK g steps) {W : Input} (hW : StepsIn W 0 steps) (f : List PTree) :
    Returns (Rec.new (treeEnv g la sorter) f >>= Rec.session (treeEnv g la sorter) steps) fun r =>
      r.2 = true → ∃ S loc, InvAt g R W 0 False (Pred R g.startSym W) (fun _ => False) r.1 steps.length S loc := by
  have hT : LookaheadOK g R (fun _ => False) := ⟨fun _ _ _ _ h => h.elim, fun _ _ _ _ _ h => h.elim⟩
  have hP := pred_predOK (R := R) g.startSym W
  refine returns_bind ((new_spec (n := 0) (H := False) hg hP f).mono ?_)
  rintro s ⟨hs, hl⟩
  refine (session_inv hg hT hrank hP steps s 0 _ _ hs (by omega) hok hW fun h => h.elim).mono ?_
  rintro ⟨s', ok⟩ hr hok1
  simp only [Nat.zero_add] at hr hok1
  rcases hr with ⟨_, h2⟩ | ⟨h1, _⟩
  · rcases h2 with ⟨rfl, rfl⟩ | ⟨_, S', loc', h3, h4, _⟩
    · exact ⟨_, _, hs⟩
    · exact ⟨_, _, h3⟩
  · rw [hok1] at h1; simp at h1

/-- What is queued matches the input. -/
def HeapSound (R : Rules) (W : Input) (P : Nat → Nat → Prop) (loc : List Nat) (e : Nat) (heap : List TItem) : Prop :=
  ∀ it ∈ heap, ∃ a t, loc[it.origin]? = some a ∧ P a (lhsOf R it.dot) ∧ TreeOf R W t (lhsOf R it.dot) a (e + 1)

/-- After the tokens of a position have been scanned, what is queued matches the input. -/
theorem mid_sound (hg : GrammarOK g R root) {la sorter} {s : TRec} {S loc} {W : Input} {P : Nat → Nat → Prop} {St : Nat → Prop}
    {e : Nat} (hP : PredOK R g.startSym W P St) (h : Rest g R s S) (hs : Sound R W P St s.predicted S loc e)
    (hlen : S.length < 2 ^ 64) (ht : ∀ t ∈ W e, t.1 < g.syms + g.gensyms) :
    Returns (Rec.scanAll (treeEnv g la sorter) s.beginEarleme (W e)) fun s' => ∃ scans cur,
      (ctxOf g R root la sorter s S).Mid scans s' scans 0 cur ∧ HeapSound R W P loc e s'.complete ∧
        scans = scansOf (S.length - 1) (W e) := by
  have hc := h.ok hg (la := la) (sorter := sorter)
  have hmid : (ctxOf g R root la sorter s S).Mid 0 s.beginEarleme 0 0 [] := by
    refine ⟨?_, ?_, rfl, rfl, by simp, ?_, by simp, ?_, by simp⟩
    · simp only [Rec.beginEarleme, h.medial, Vec2d.nextSet_eq]; rfl
    · show Heap.IsHeap s.complete
      rw [h.empty]; exact Heap.isHeap_nil
    · show facts s.complete + 0 = _
      rw [h.empty]; simp
    · show ∀ it ∈ s.complete, _
      rw [h.empty]; simp
  have hJ : (ctxOf g R root la sorter s S).Keeps (W e) fun _ heap _ => HeapSound R W P loc e heap := by
    refine ⟨by simp [HeapSound], ?_, ?_⟩
    · intro pre post a v heap heap' cur e1 e2 e3 e4 it hit
      rcases List.mem_append.1 (e4.mem_iff.1 hit) with h' | h'
      · exact e2 it h'
      · exact EC.heapNew_sound hg hP hs h.node hs.last (.leaf (v := v) (by rw [e1]; simp)) it h'
    · intro heap heap' cur G rest o A e2 a1 a2 a3 a4 a5 a6 it hit
      rcases List.mem_append.1 (a6.mem_iff.1 hit) with h' | h'
      · exact e2 it (a2.mem_iff.2 (List.mem_append_right _ h'))
      · obtain ⟨it0, G', rfl⟩ := List.exists_cons_of_ne_nil a1
        obtain ⟨a, t, b1, _, b3⟩ := e2 it0 (a2.mem_iff.2 (by simp))
        have hk := a4 it0 (by simp)
        simp only [keyOf, Prod.mk.injEq, ctxOf] at hk
        rw [hk.1] at b1
        rw [hk.2] at b3
        exact EC.heapNew_sound hg hP hs h.node b1 b3 it h'
  refine (scanAll_spec hc h.pos hlen hJ [] (W e) rfl ht hmid (by simp [HeapSound, Rec.beginEarleme, h.empty])).mono ?_
  rintro s1 ⟨cur1, hm1, hj⟩
  exact ⟨_, _, hm1, hj, by rw [zero_add]; rfl⟩

/-- The groups that are completed match the input. -/
theorem groups_sound (hg : GrammarOK g R root) {la sorter} {s0 : TRec} {S loc} {W : Input} {P : Nat → Nat → Prop} {St : Nat → Prop}
    {e : Nat} (hP : PredOK R g.startSym W P St) (h : Rest g R s0 S) (hs : Sound R W P St s0.predicted S loc e)
    {s s' : TRec} {l : List (Nat × Nat)} (hgr : Rec.Groups (ctxOf g R root la sorter s0 S).E s l s') :
    ∀ {scans Fd popped cur}, (ctxOf g R root la sorter s0 S).Mid scans s Fd popped cur → HeapSound R W P loc e s.complete →
    ∀ p ∈ l, ∃ a t, loc[p.1]? = some a ∧ TreeOf R W t p.2 a (e + 1) ∧ P a p.2 := by
  have hc := h.ok hg (la := la) (sorter := sorter)
  induction hgr with
  | done h1 => intro scans Fd popped cur _ _ p hp; cases hp
  | @next s s1 s2 o A l h1 h2 _ ih =>
    intro scans Fd popped cur hm hj
    have hst : Rec.completeStep (ctxOf g R root la sorter s0 S).E s = pure (.inl s1) := by
      unfold Rec.completeStep
      rw [h1, pure_bind]
      simp only [h2, pure_bind]
    obtain ⟨G, rest, o', A', Fd', popped', cur', hm', hol, hG, hperm, hkey, hrest, hperm', _, _⟩ := (EC.Mid.step hc hm).of_eq hst
    obtain ⟨it0, G', rfl⟩ := List.exists_cons_of_ne_nil hG
    obtain ⟨a, t, b1, _, b3⟩ := hj it0 (hperm.mem_iff.2 (by simp))
    have hk := hkey it0 (by simp)
    simp only [keyOf, Prod.mk.injEq, ctxOf] at hk
    rw [hk.1] at b1
    rw [hk.2] at b3
    have hj' : HeapSound R W P loc e s1.complete := by
      intro it hit
      rcases List.mem_append.1 (hperm'.mem_iff.1 hit) with h' | h'
      · exact hj it (hperm.mem_iff.2 (List.mem_append_right _ h'))
      · exact EC.heapNew_sound hg hP hs h.node b1 b3 it h'
    intro p hp
    rcases List.mem_cons.1 hp with rfl | hp
    · unfold Rec.nextSum at h1
      cases hp : Heap.peek s.complete with
      | none => rw [hp] at h1; exact absurd (pure_inj_M h1) (by simp)
      | some top =>
        rw [hp] at h1
        have hmem := List.mem_of_getElem? hp
        obtain ⟨_, _, r, hrr⟩ := hm.hitems top hmem
        have hlhs : (ctxOf g R root la sorter s0 S).E.g.getLhs top.dot = pure r.lhs := hc.gok.getLhs _ _ hrr
        simp only [hlhs, pure_bind, pure_inj_M_iff, Option.some.injEq, Prod.mk.injEq] at h1
        obtain ⟨a, t, b1, b2, b3⟩ := hj top hmem
        rw [lhsOf_eq (R := R) hrr] at b2 b3
        rw [h1.1] at b1
        rw [h1.2] at b2 b3
        exact ⟨a, t, b1, b3, b2⟩
    · exact ih hm' hj' p hp

/-- If no predicted symbol has two trees over the same positions, every rule and origin is completed at most once at a
position: the waiting items of all groups are few. -/
theorem sum_wcount_single {S : List (List TItem)} {loc : List Nat} {W : Input} {P : Nat → Nat → Prop} {St : Nat → Prop}
    {pm : BitMatrix} {e : Nat} (hs : Sound R W P St pm S loc e) (hnode : ∀ l ∈ S, ∀ it ∈ l, it.node ≠ [])
    (hnd : ∀ l ∈ S, (l.map dotOrigin).Nodup) (hor : ∀ (k : Nat) l, S[k]? = some l → ∀ it ∈ l, it.origin ≤ k)
    (hun : ∀ A a t t', P a A → TreeOf R W t A a (e + 1) → TreeOf R W t' A a (e + 1) → t = t')
    {l : List (Nat × Nat)} (hl : l.Nodup) (hgs : ∀ p ∈ l, ∃ a t, loc[p.1]? = some a ∧ TreeOf R W t p.2 a (e + 1)) :
    (l.map fun p => wcount R S p.1 p.2).sum ≤ R.length * S.length := by
  -- all pairs of a group and a waiting item
  let waiting : Nat × Nat → List TItem := fun p => (S[p.1]?.getD []).filter fun it => decide (rhs1Of R it.dot = some p.2)
  have hw : (l.map fun p => wcount R S p.1 p.2).sum = (l.flatMap fun p => (waiting p).map dotOrigin).length := by
    rw [List.length_flatMap]
    congr 1
    refine List.map_congr_left fun p _ => ?_
    rw [List.length_map, wcount, List.countP_eq_length_filter]
  rw [hw]
  have hmem : ∀ p, ∀ it ∈ waiting p, ∃ s, S[p.1]? = some s ∧ it ∈ s ∧ rhs1Of R it.dot = some p.2 := by
    intro p it hit
    obtain ⟨h1, h2⟩ := List.mem_filter.1 hit
    cases hS : S[p.1]? with
    | none => rw [hS] at h1; simp at h1
    | some s => rw [hS] at h1; exact ⟨s, rfl, by simpa using h1, by simpa using h2⟩
  have hnodup : (l.flatMap fun p => (waiting p).map dotOrigin).Nodup := by
    rw [List.nodup_flatMap]
    refine ⟨fun p hp => ?_, ?_⟩
    · cases hS : S[p.1]? with
      | none => simp [waiting, hS]
      | some s =>
        simp only [waiting, hS, Option.getD_some]
        exact (hnd s (List.mem_of_getElem? hS)).sublist (List.filter_sublist.map _)
    · refine hl.imp_of_mem fun {p q} hp hq hpq => ?_
      intro x hx hx'
      apply hpq
      obtain ⟨it, hit, rfl⟩ := List.mem_map.1 hx
      obtain ⟨it', hit', he⟩ := List.mem_map.1 hx'
      simp only [dotOrigin, Prod.mk.injEq] at he
      obtain ⟨s, h1, h2, h3⟩ := hmem p it hit
      obtain ⟨s', h1', h2', h3'⟩ := hmem q it' hit'
      obtain ⟨f, fs, hf⟩ := List.exists_cons_of_ne_nil (hnode s (List.mem_of_getElem? h1) it h2)
      obtain ⟨f', fs', hf'⟩ := List.exists_cons_of_ne_nil (hnode s' (List.mem_of_getElem? h1') it' h2')
      obtain ⟨A, B, C, a, b, k1, k2, k3, k4, k5⟩ := hs.fact _ s h1 (it.dot, it.origin, f)
        (mem_facts.2 ⟨it, h2, rfl, rfl, by rw [hf]; simp⟩)
      obtain ⟨A', B', C', a', b', k1', k2', k3', k4', k5'⟩ := hs.fact _ s' h1' (it'.dot, it'.origin, f')
        (mem_facts.2 ⟨it', h2', rfl, rfl, by rw [hf']; simp⟩)
      simp only at k1 k2 k3 k4 k5 k1' k2' k3' k4' k5'
      rw [he.1] at k1' h3'
      rw [he.2, k2] at k2'
      cases k2'
      rw [k1] at k1'
      cases k1'
      simp only [rhs1Of, k1, Option.bind_some, Option.some.injEq] at h3 h3'
      obtain ⟨a1, t, m1, m2⟩ := hgs p hp
      obtain ⟨a2, t', m1', m2'⟩ := hgs q hq
      rw [k3] at m1
      rw [k3'] at m1'
      cases m1
      cases m1'
      rw [← h3] at m2
      rw [← h3'] at m2'
      have := hun A a _ _ k5 (.binary k1 k4 m2) (.binary k1 k4' m2')
      simp only [PTree.node.injEq, PTree.pair.injEq, true_and] at this
      have hw1 := k4.width
      have hw2 := k4'.width
      rw [this.1] at hw1
      have hb : b = b' := by omega
      subst hb
      have h1e : p.1 = q.1 := by
        obtain ⟨i1, i2⟩ := List.getElem?_eq_some_iff.1 k3
        obtain ⟨j1, j2⟩ := List.getElem?_eq_some_iff.1 k3'
        rcases Nat.lt_trichotomy p.1 q.1 with hlt | heq | hlt
        · have := List.pairwise_iff_getElem.1 hs.mono _ _ i1 j1 hlt; omega
        · exact heq
        · have := List.pairwise_iff_getElem.1 hs.mono _ _ j1 i1 hlt; omega
      exact Prod.ext h1e (h3.symm.trans h3')
  have hsub : (l.flatMap fun p => (waiting p).map dotOrigin).toFinset ⊆ Finset.range R.length ×ˢ Finset.range S.length := by
    intro x hx
    rw [List.mem_toFinset, List.mem_flatMap] at hx
    obtain ⟨p, _, hx⟩ := hx
    obtain ⟨it, hit, rfl⟩ := List.mem_map.1 hx
    obtain ⟨s, h1, h2, h3⟩ := hmem p it hit
    simp only [dotOrigin, Finset.mem_product, Finset.mem_range]
    constructor
    · unfold rhs1Of at h3
      cases hR : R[it.dot]? with
      | none => rw [hR] at h3; simp at h3
      | some r => exact (List.getElem?_eq_some_iff.1 hR).1
    · exact Nat.lt_of_le_of_lt (hor _ s h1 it h2) (List.getElem?_eq_some_iff.1 h1).1
  have hcard := Finset.card_le_card hsub
  rw [List.toFinset_card_of_nodup hnodup, Finset.card_product, Finset.card_range, Finset.card_range] at hcard
  exact hcard

/-- Cost of different groups, if rules are completed once. -/
theorem sum_groupCost_single {S : List (List TItem)} {L N K : Nat} {l : List (Nat × Nat)} (hnd : l.Nodup)
    (hl : ∀ p ∈ l, p.1 < L ∧ p.2 < N) (hK : (l.map fun p => wcount R S p.1 p.2).sum ≤ K) :
    (l.map (groupCost R S)).sum ≤ L * (2 * N + R.length) + 2 * K := by
  have h1 : (l.map (groupCost R S)).sum = (l.map fun p => 2 + ucount R p.2).sum + 2 * (l.map fun p => wcount R S p.1 p.2).sum := by
    clear hnd hl hK
    induction l with
    | nil => simp
    | cons p l ih =>
      simp only [List.map_cons, List.sum_cons, ih, groupCost]
      omega
  have h2 : (l.map fun p => 2 + ucount R p.2).sum ≤ L * (2 * N + R.length) := by
    rw [← List.sum_toFinset _ hnd]
    have hsub : l.toFinset ⊆ Finset.range L ×ˢ Finset.range N := by
      intro p hp
      rw [List.mem_toFinset] at hp
      simpa using hl p hp
    refine (Finset.sum_le_sum_of_subset hsub).trans ?_
    rw [Finset.sum_product]
    refine (Finset.sum_le_card_nsmul _ _ (2 * N + R.length) ?_).trans ?_
    · intro o ho
      simp only [Finset.sum_add_distrib, Finset.sum_const, Finset.card_range]
      have h2 := sum_ucount_le R N
      simp only [Nat.nsmul_eq_mul]
      omega
    · simp
  omega

/-- If few symbols end at the position of a set, the set is small. -/
theorem set_length_ends {start : Nat} {S : List (List TItem)} {loc : List Nat} {W : Input} {St : Nat → Prop}
    {pm : BitMatrix} {e : Nat} (hs : Sound R W (Pred R start W) St pm S loc e) (hnode : ∀ l ∈ S, ∀ it ∈ l, it.node ≠ [])
    (hnd : ∀ l ∈ S, (l.map dotOrigin).Nodup) {K : Nat}
    (hK : ∀ b, ∃ T : Finset (Nat × Nat), T.card ≤ K ∧ ∀ A a t, Pred R start W a A → TreeOf R W t A a b → (A, a) ∈ T)
    {k : Nat} {l : List TItem} (hl : S[k]? = some l) : l.length ≤ R.length * K := by
  have hkl : k < loc.length := by rw [hs.locLen]; exact (List.getElem?_eq_some_iff.1 hl).1
  obtain ⟨T, hT, hTm⟩ := hK loc[k]
  have hmem := List.mem_of_getElem? hl
  have key : ∀ p ∈ l.map dotOrigin, ∃ q : Nat × Nat × Nat, q.1 = p.1 ∧ loc[p.2]? = some q.2.2 ∧
      q ∈ Finset.range R.length ×ˢ T := by
    intro p hp
    obtain ⟨it, hit, rfl⟩ := List.mem_map.1 hp
    obtain ⟨f, fs, hf⟩ := List.exists_cons_of_ne_nil (hnode l hmem it hit)
    obtain ⟨A, B, C, a, b, k1, k2, k3, k4, k5⟩ := hs.fact k l hl (it.dot, it.origin, f)
      (mem_facts.2 ⟨it, hit, rfl, rfl, by rw [hf]; simp⟩)
    simp only at k1 k2 k3 k4 k5
    rw [List.getElem?_eq_getElem hkl, Option.some.injEq] at k3
    refine ⟨(it.dot, B, a), rfl, k2, ?_⟩
    rw [Finset.mem_product, Finset.mem_range]
    exact ⟨(List.getElem?_eq_some_iff.1 k1).1, hTm B a f (.corner k5 ⟨_, List.mem_of_getElem? k1, rfl, rfl⟩) (k3 ▸ k4)⟩
  choose! q hq1 hq2 hq3 using key
  have := Finset.card_le_card_of_injOn (s := (l.map dotOrigin).toFinset) (t := Finset.range R.length ×ˢ T) q
    (fun p hp => hq3 p (by simpa using hp)) (by
      intro p hp p' hp' he
      have hp : p ∈ l.map dotOrigin := by simpa using hp
      have hp' : p' ∈ l.map dotOrigin := by simpa using hp'
      refine Prod.ext ?_ ?_
      · rw [← hq1 p hp, ← hq1 p' hp', he]
      · refine loc_inj hs.mono (hq2 p hp) ?_
        rw [hq2 p' hp', he])
  rw [List.toFinset_card_of_nodup (hnd l hmem), List.length_map, Finset.card_product, Finset.card_range] at this
  exact this.trans (Nat.mul_le_mul_left _ hT)

/-- If few symbols end at a position, few groups are completed there. -/
theorem groups_ends {start : Nat} {loc : List Nat} {W : Input} {e : Nat} {K : Nat}
    (hK : ∃ T : Finset (Nat × Nat), T.card ≤ K ∧ ∀ A a t, Pred R start W a A → TreeOf R W t A a (e + 1) → (A, a) ∈ T)
    (hmono : loc.Pairwise (· < ·)) {l : List (Nat × Nat)} (hnd : l.Nodup)
    (hgs : ∀ p ∈ l, ∃ a t, loc[p.1]? = some a ∧ TreeOf R W t p.2 a (e + 1) ∧ Pred R start W a p.2) : l.length ≤ K := by
  obtain ⟨T, hT, hTm⟩ := hK
  choose! a t h1 h2 h3 using hgs
  have := Finset.card_le_card_of_injOn (s := l.toFinset) (t := T) (fun p => (p.2, a p))
    (fun p hp => by
      have hp : p ∈ l := by simpa using hp
      exact hTm _ _ _ (h3 p hp) (h2 p hp)) (by
      intro p hp p' hp' he
      have hp : p ∈ l := by simpa using hp
      have hp' : p' ∈ l := by simpa using hp'
      simp only [Prod.mk.injEq] at he
      refine Prod.ext ?_ he.1
      refine loc_inj hmono (h1 p hp) ?_
      rw [h1 p' hp', he.2])
  rw [List.toFinset_card_of_nodup hnd] at this
  exact this.trans hT

theorem sum_groupCost_const {S : List (List TItem)} {K M : Nat} {l : List (Nat × Nat)} (hl : l.length ≤ K)
    (hM : ∀ p ∈ l, (S[p.1]?.getD []).length ≤ M) :
    (l.map (groupCost R S)).sum ≤ K * (2 + 2 * M + R.length) := by
  have h1 : ∀ x ∈ l.map (groupCost R S), x ≤ 2 + 2 * M + R.length := by
    intro x hx
    obtain ⟨p, hp, rfl⟩ := List.mem_map.1 hx
    have h2 : wcount R S p.1 p.2 ≤ M := (List.countP_le_length).trans (hM p hp)
    have h3 : ucount R p.2 ≤ R.length := List.countP_le_length
    unfold groupCost
    omega
  have h2 := List.sum_le_card_nsmul _ _ h1
  rw [List.length_map, Nat.nsmul_eq_mul] at h2
  exact h2.trans (Nat.mul_le_mul_right _ hl)

end Gearley
