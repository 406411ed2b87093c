import Verif.Proofs.Exact

/-! # The order in which groups are completed; the state inside and after a position -/

namespace Gearley
open Gearley.Spec
variable {σ ν : Type}

/-- If the completion loop returns, it went through a list of groups. -/
theorem groups_of_completeAll {E : Env σ ν} {s s' : Rec σ ν} (h : Rec.completeAll E s = pure s') :
    ∃ l s2, Rec.Groups E s l s2 ∧ s' = s2.clearHint := by
  have key : ∀ (n : Nat) (s : Rec σ ν), loopFuel (Rec.completeStep E) n s = pure s' →
      ∃ l s2, Rec.Groups E s l s2 ∧ s' = s2.clearHint := by
    intro n
    induction n with
    | zero => intro s h; exact absurd h diverge_ne_pure
    | succ n ih =>
      intro s h
      unfold loopFuel at h
      obtain ⟨r, h1, h2⟩ := bind_eq_pure h
      unfold Rec.completeStep at h1
      obtain ⟨o, h3, h4⟩ := bind_eq_pure h1
      cases o with
      | none =>
        have := pure_inj_M h4
        subst this
        exact ⟨[], s, .done h3, (pure_inj_M h2).symm⟩
      | some p =>
        obtain ⟨o, A⟩ := p
        obtain ⟨s1, h5, h6⟩ := bind_eq_pure h4
        have := pure_inj_M h6
        subst this
        obtain ⟨l, s2, h7, h8⟩ := ih s1 h2
        exact ⟨(o, A) :: l, s2, .next h3 h5 h7, h8⟩
  rcases loop_fuel (f := Rec.completeStep E) s with h1 | ⟨n, h1⟩
  · have : loop (Rec.completeStep E) s = pure s' := h
    rw [h1] at this
    exact absurd this diverge_ne_pure
  · exact key n s (by rw [h1]; exact h)

namespace EC
variable {c : EC}

/-- With unary rules numbered downwards, groups come in strictly decreasing order. -/
theorem groups_decreasing (hc : c.OK) (ho : Ordered c.R) {s : TRec} {l : List (Nat × Nat)} {s' : TRec}
    (hgr : Rec.Groups c.E s l s') : ∀ {scans Fd popped cur}, c.Mid scans s Fd popped cur →
    l.Pairwise (fun a b => KeyLt b a) ∧ ∀ bnd : Nat × Nat, (∀ it ∈ s.complete, KeyLt (keyOf c.R it) bnd) →
      ∀ x ∈ l, KeyLt x bnd := by
  induction hgr with
  | done _ => intro scans Fd popped cur _; exact ⟨List.Pairwise.nil, by simp⟩
  | @next s s1 s2 o A l h1 h2 _ ih =>
    intro scans Fd popped cur h
    have hstep := Mid.step hc h
    have hst : Rec.completeStep c.E s = pure (.inl s1) := by
      unfold Rec.completeStep
      rw [h1, pure_bind]
      simp only [h2, pure_bind]
    obtain ⟨G, rest, o', A', Fd', popped', cur', hm, hol, hG, hperm, hkey, hrest, hperm', _, _⟩ := hstep.of_eq hst
    -- the top of the queue has the key `(o, A)`
    obtain ⟨top, htop, hk⟩ : ∃ top, Heap.peek s.complete = some top ∧ keyOf c.R top = (o, A) := by
      unfold Rec.nextSum at h1
      cases hp : Heap.peek s.complete with
      | none => rw [hp] at h1; simp at h1
      | some top =>
        rw [hp] at h1
        obtain ⟨_, _, r, hrr⟩ := h.hitems top (List.mem_of_getElem? hp)
        have hlhs : c.E.g.getLhs top.dot = pure r.lhs := hc.gok.getLhs _ _ hrr
        simp only [hlhs, pure_bind, pure_inj_M_iff, Option.some.injEq, Prod.mk.injEq] at h1
        exact ⟨top, rfl, by simp [keyOf, lhsOf_eq hrr, h1]⟩
    have hmem : top ∈ s.complete := List.mem_of_getElem? htop
    have hkk : (o', A') = (o, A) := by
      obtain ⟨it, G', rfl⟩ := List.exists_cons_of_ne_nil hG
      have hit : it ∈ s.complete := hperm.mem_iff.2 (by simp)
      rcases List.mem_append.1 (hperm.mem_iff.1 hmem) with h3 | h3
      · rw [← hkey top h3, hk]
      · have h4 := hrest top h3
        have h5 := key_mono hc.gok (h.hitems it hit).2.2 (h.hitems top hmem).2.2 (peek_max h.heap htop it hit)
        rw [hkey it (by simp), hk] at h5
        rw [hk] at h4
        rcases h5 with h5 | h5
        · simp only [KeyLt] at h4 h5; omega
        · exact h5
    simp only [Prod.mk.injEq] at hkk
    obtain ⟨rfl, rfl⟩ := hkk
    have hN : G.flatMap sumTrees ≠ [] := by
      obtain ⟨it, G', rfl⟩ := List.exists_cons_of_ne_nil hG
      have := (h.hitems it (hperm.mem_iff.2 (by simp))).1
      simp [sumTrees, this]
    obtain ⟨hd, hb⟩ := ih hm
    have hlt : ∀ x ∈ l, KeyLt x (o', A') := by
      refine hb (o', A') ?_
      intro it hit
      rcases List.mem_append.1 (hperm'.mem_iff.1 hit) with h3 | h3
      · exact hrest it h3
      · obtain ⟨_, _, r, hr, hcase⟩ := heapNew_items hc hol hN it h3
        simp only [keyOf, lhsOf_eq hr, KeyLt]
        rcases hcase with h4 | ⟨h4, h5, h6⟩
        · exact .inl h4
        · have := ho r (List.mem_of_getElem? hr) h5
          exact .inr ⟨h4, by omega⟩
    refine ⟨List.pairwise_cons.2 ⟨hlt, hd⟩, ?_⟩
    intro bnd hbnd x hx
    have htb := hbnd top hmem
    rw [hk] at htb
    rcases List.mem_cons.1 hx with rfl | hx
    · exact htb
    · have := hlt x hx
      simp only [KeyLt] at this htb ⊢; omega

end EC

section
variable {g : DefaultGrammar} {R : Rules} {root : Nat → Nat}

/-- The state after a session, whatever the hints. -/
theorem new_rest (hg : GrammarOK g R root) {rank : Nat → Nat} (hrank : EC.Ranked R rank) {steps : List Step} {la sorter}
    (hlen : steps.length < 2 ^ 64) (hok : StepsOK g steps) (f : List PTree) :
    Returns (Rec.new (treeEnv g la sorter) f >>= Rec.session (treeEnv g la sorter) steps) fun r =>
      r.2 = true → ∃ S, Rest g R r.1 S ∧ S.length ≤ steps.length + 1 ∧ (steps ≠ [] → 2 ≤ S.length) ∧
        (TermToks R (inputOf steps) → EC.Ordered R → ∀ l ∈ S, (l.map dotOrigin).Nodup) := by
  have hT : LookaheadOK g R (fun _ => False) := ⟨fun _ _ _ _ h => h.elim, fun _ _ _ _ _ h => h.elim⟩
  have hP := pred_predOK (R := R) g.startSym (extendBy steps [])
  refine returns_bind ((new_spec (n := 0) (H := False) hg hP f).mono ?_)
  rintro s ⟨hs, hl⟩
  refine (session_inv hg hT hrank hP steps s 0 _ _ hs (by omega) hok (extendBy_in _ _) fun h => h.elim).mono ?_
  rintro ⟨s', ok⟩ hr hok1
  simp only [Nat.zero_add] at hr hok1
  have key : ∀ S loc, InvAt g R (extendBy steps []) 0 False (Pred R g.startSym (extendBy steps [])) (fun _ => False) s'
      steps.length S loc → (steps ≠ [] → 2 ≤ S.length) → ∃ S, Rest g R s' S ∧ S.length ≤ steps.length + 1 ∧
        (steps ≠ [] → 2 ≤ S.length) ∧
        (TermToks R (inputOf steps) → EC.Ordered R → ∀ l ∈ S, (l.map dotOrigin).Nodup) := by
    intro S loc h hne
    refine ⟨S, h.rest, h.sound.length_le h.rest.pos, hne, ?_⟩
    intro htt hord l hl
    rw [List.nodup_iff_count_le_one]
    rintro ⟨d, o⟩
    by_cases hx : (d, o) ∈ l.map dotOrigin
    · obtain ⟨it, hit, he⟩ := List.mem_map.1 hx
      obtain ⟨A, B, C, hR⟩ := h.rest.binary l hl it hit
      simp only [dotOrigin, Prod.mk.injEq] at he
      refine h.ordered hord (extendBy_term htt (by simp)) l hl d o ⟨B, ?_⟩
      simp [rhs0Of, ← he.1, hR]
    · rw [List.count_eq_zero.2 hx]; omega
  rcases hr with ⟨_, h2⟩ | ⟨h1, _⟩
  · rcases h2 with ⟨rfl, rfl⟩ | ⟨_, S', loc', h3, h4, _⟩
    · exact key _ _ hs (fun h => absurd rfl h)
    · exact key _ _ h3 (fun _ => h4)
  · rw [hok1] at h1; simp at h1

/-- After the tokens of a position have been scanned. -/
theorem mid_of_rest (hg : GrammarOK g R root) {la sorter} {s : TRec} {S} (h : Rest g R s S) (hlen : S.length < 2 ^ 64)
    (toks : List (Nat × Nat)) (ht : ∀ t ∈ toks, t.1 < g.syms + g.gensyms) :
    Returns (Rec.scanAll (treeEnv g la sorter) s.beginEarleme toks) fun s' => ∃ scans cur,
      (ctxOf g R root la sorter s S).Mid scans s' scans 0 cur := by
  have hc := h.ok hg (la := la) (sorter := sorter)
  have hmid : (ctxOf g R root la sorter s S).Mid 0 s.beginEarleme 0 0 [] := by
    refine ⟨?_, ?_, rfl, rfl, by simp, ?_, by simp, ?_, by simp⟩
    · simp only [Rec.beginEarleme, h.medial, Vec2d.nextSet_eq]; rfl
    · show Heap.IsHeap s.complete
      rw [h.empty]; exact Heap.isHeap_nil
    · show facts s.complete + 0 = _
      rw [h.empty]; simp
    · show ∀ it ∈ s.complete, _
      rw [h.empty]; simp
  refine (scanAll_spec hc h.pos hlen (EC.keeps_true _ toks) [] toks rfl ht hmid trivial).mono ?_
  rintro s1 ⟨cur1, hm1, _⟩
  exact ⟨_, _, hm1⟩

/-- A run of the completion loop with one forest is a run with any other, as long as the latter does not panic. -/
theorem groups_lax {F : ForestOps σ ν} {la : Bool} {so : Sorter} {s s' : Rec σ ν} {l : List (Nat × Nat)}
    (h : Rec.Groups (FSim.env g la false so F) s l s') : ∀ {t : TRec} {c : EC} {scans Fd popped cur},
    c.g = g → c.la = la → c.sorter = so → c.OK → c.Mid scans t Fd popped cur → (laxSim F treeForest).RIdle () s t →
    ∃ t', Rec.Groups c.E t l t' := by
  induction h with
  | done h1 =>
    intro t c scans Fd popped cur e1 e2 e3 hc hm hr
    subst e1 e2 e3
    have := FSim.nextSum_rel (g := c.g) (la := c.la) (leo := false) (so := c.sorter) hr
    exact ⟨t, .done (this.symm.trans h1)⟩
  | @next s s1 s2 o A l h1 h2 _ ih =>
    intro t c scans Fd popped cur e1 e2 e3 hc hm hr
    have e1' := e1
    have e2' := e2
    have e3' := e3
    subst e1 e2 e3
    have hd : DotsOK c.g fun _ => True := ⟨fun _ _ _ _ _ => trivial, fun _ _ _ _ _ => trivial, fun _ _ _ _ _ => trivial⟩
    obtain ⟨r, h3, h4⟩ := EC.Mid.step hc hm
    have h3' := h3
    unfold Rec.completeStep at h3
    obtain ⟨x, h5, h6⟩ := bind_eq_pure h3
    have hx := pure_inj_M (h1.symm.trans ((FSim.nextSum_rel (g := c.g) (la := c.la) (leo := false) (so := c.sorter) hr).trans h5))
    subst hx
    simp only at h6
    obtain ⟨t1, h7, h8⟩ := bind_eq_pure h6
    have := pure_inj_M h8
    subst this
    obtain ⟨_, _, _, _, Fd', popped', cur', hm', _⟩ := h4
    have hr' := (FSim.completeEntireSum_rel (g := c.g) (la := c.la) (leo := false) (so := c.sorter) hd hr o A h1).both h2 h7
    obtain ⟨_, _, hr'⟩ := hr'
    obtain ⟨t', ht'⟩ := ih e1' e2' e3' hc hm' hr'
    exact ⟨t', .next h5 h7 ht'⟩

end
end Gearley
