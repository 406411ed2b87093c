import Verif.Proofs.Separate
import Verif.Proofs.Cost
import Verif.Proofs.SortFree
import Verif.Props.Cost

/-!
# A forest that watches the summands

The trees of `treeForest`, together with a record whether all sums so far had separate summands. In every session they do.
-/

namespace Gearley
open Gearley.Spec

/-- State: the summands pushed so far, and whether all earlier sums had separate summands. -/
abbrev SepState := List (Nat × List PTree) × Prop

/-- The trees of some summands. -/
def summandTrees (xs : List (Nat × List PTree)) : List PTree := xs.flatMap fun x => x.2.map (.node x.1)

def sepForest : ForestOps SepState (List PTree) where
  beginSum s := pure ([], s.2)
  pushSummand s it := pure (s.1 ++ [(it.dot, it.node)], s.2)
  sum s _ _ := pure ((s.1, s.2 ∧ s.1.Pairwise Sep), summandTrees s.1)
  product s l r := pure (s, pairs l r)
  leaf s sym _ value := pure (s, [.leaf sym value])
  nulling _ sym := pure [.nulling sym]

/-- The same nodes as with `treeForest`. -/
def sepSim : FSim False sepForest treeForest (fun _ => True) (fun _ _ => True) where
  γ := Unit
  le _ _ := True
  refl _ := trivial
  trans _ _ := trivial
  N _ a b := a = b
  mono _ h := h
  Idle _ _ _ := True
  Summing _ _ s t := t = summandTrees s.1
  beginSum _ := relM_pures rfl rfl ⟨(), trivial, rfl⟩
  pushSummand := by
    rintro _ k s t d o a b h _ h'
    refine relM_pures rfl rfl ⟨(), trivial, ?_⟩
    simp only at h h' ⊢
    rw [h, h']; simp [summandTrees]
  sum := by
    rintro _ k s t lhs o h _
    exact relM_pures rfl rfl ⟨(), trivial, trivial, h.symm⟩
  product := by
    rintro _ s t a b c d _ h h'
    have h : a = b := h
    have h' : c = d := h'
    subst h h'
    exact relM_pures rfl rfl ⟨(), trivial, trivial, rfl⟩
  leaf := by
    rintro _ s t sym pos val _ _
    exact relM_pures rfl rfl ⟨(), trivial, trivial, rfl⟩

abbrev sepEnv (g : DefaultGrammar) (la : Bool) (sorter : Sorter) : Env SepState (List PTree) :=
  FSim.env g la false sorter sepForest

abbrev SRec := Rec SepState (List PTree)

namespace Rec
variable {g : DefaultGrammar} {la : Bool} {so : Sorter}

theorem completeMedialFold_sep {n : List PTree} {items : List TItem} : ∀ {s s' : SRec},
    items.foldlM (completeMedialItem (sepEnv g la so) n) s = pure s' → s'.forest = s.forest := by
  induction items with
  | nil => intro s s' h; rw [← pure_inj_M h]
  | cons x l ih =>
    intro s s' h
    rw [List.foldlM_cons] at h
    obtain ⟨s1, h1, h⟩ := bind_eq_pure h
    rw [ih h]
    unfold completeMedialItem at h1
    obtain ⟨u, _, h1⟩ := bind_eq_pure h1
    split at h1
    · obtain ⟨⟨f, m⟩, h2, h1⟩ := bind_eq_pure h1
      obtain ⟨heap, _, h1⟩ := bind_eq_pure h1
      have h2 := pure_inj_M (show (pure (s.forest, pairs x.node n) : M _) = pure (f, m) from h2)
      simp only [Prod.mk.injEq] at h2
      rw [← pure_inj_M h1]
      exact h2.1.symm
    · rw [← pure_inj_M h1]

theorem completePrediction_sep {n : List PTree} {o : Nat} : ∀ {comps : List PT} {p q : SRec × Nat},
    comps.foldlM (completePrediction (sepEnv g la so) o n) p = pure q → q.1.forest = p.1.forest := by
  intro comps
  induction comps with
  | nil => intro p q h; rw [← pure_inj_M h]
  | cons x l ih =>
    intro p q h
    rw [List.foldlM_cons] at h
    obtain ⟨p1, h1, h⟩ := bind_eq_pure h
    rw [ih h]
    unfold completePrediction at h1
    obtain ⟨b, _, h1⟩ := bind_eq_pure h1
    obtain ⟨u, _, h1⟩ := bind_eq_pure h1
    split at h1 <;> rw [← pure_inj_M h1]

theorem completeSym_sep {n : List PTree} {s s' : SRec} {o A : Nat} (h : completeSym (sepEnv g la so) s o A n = pure s') :
    s'.forest = s.forest := by
  unfold completeSym at h
  split at h
  · unfold completeGenerated at h
    obtain ⟨⟨b, u⟩, h1, h⟩ := bind_eq_pure h
    obtain ⟨s1, h2, h⟩ := bind_eq_pure h
    have e1 : s1.forest = s.forest := by
      cases u with
      | none => rw [← pure_inj_M h2]
      | some t =>
        obtain ⟨p, _, h2⟩ := bind_eq_pure h2
        split at h2
        · obtain ⟨heap, h3, h2⟩ := bind_eq_pure h2
          rw [← pure_inj_M h2]
        · rw [← pure_inj_M h2]
    cases b with
    | none => rw [← pure_inj_M h]; exact e1
    | some t =>
      obtain ⟨p, _, h⟩ := bind_eq_pure h
      split at h <;> (rw [← pure_inj_M h]; exact e1)
  · obtain ⟨b, _, h⟩ := bind_eq_pure h
    cases b with
    | false =>
      simp only [Bool.false_eq_true, if_false] at h
      rw [← pure_inj_M h]
    | true =>
      simp only [if_true, Bool.false_eq_true, if_false] at h
      obtain ⟨s1, h1, h⟩ := bind_eq_pure h
      unfold completeMedialItems at h1
      obtain ⟨set, _, h1⟩ := bind_eq_pure h1
      obtain ⟨items, _, h1⟩ := bind_eq_pure h1
      rw [← completeMedialFold_sep h1]
      unfold completePredictions at h
      obtain ⟨last, _, h⟩ := bind_eq_pure h
      obtain ⟨comps, _, h⟩ := bind_eq_pure h
      obtain ⟨⟨s2, k⟩, h3, h⟩ := bind_eq_pure h
      obtain ⟨last', _, h⟩ := bind_eq_pure h
      obtain ⟨heap, _, h⟩ := bind_eq_pure h
      obtain ⟨extra, _, h⟩ := bind_eq_pure h
      obtain ⟨keep, _, h⟩ := bind_eq_pure h
      rw [← pure_inj_M h]
      exact completePrediction_sep h3

theorem scan_sep {s s' : SRec} {A v : Nat} (h : scan (sepEnv g la so) s A v = pure s') : s'.forest = s.forest := by
  unfold scan at h
  obtain ⟨_, _, h⟩ := bind_eq_pure h
  obtain ⟨⟨f2, m⟩, h5, h6⟩ := bind_eq_pure h
  have h5 := pure_inj_M (show (pure (s.forest, [PTree.leaf A v]) : M _) = pure (f2, m) from h5)
  simp only [Prod.mk.injEq] at h5
  rw [completeSym_sep h6]
  exact h5.1.symm

theorem scanAll_sep {toks : List (Nat × Nat)} : ∀ {s s' : SRec}, scanAll (sepEnv g la so) s toks = pure s' →
    s'.forest = s.forest := by
  unfold scanAll
  induction toks with
  | nil => intro s s' h; rw [← pure_inj_M h]
  | cons x l ih =>
    intro s s' h
    rw [List.foldlM_cons] at h
    obtain ⟨s1, h1, h⟩ := bind_eq_pure h
    rw [ih h, scan_sep h1]

theorem summandLoop_sep {o A : Nat} : ∀ (k : Nat) {s s' : SRec}, Heap.IsHeap s.complete →
    summandLoop (sepEnv g la so) o A k s = pure s' →
    ∃ popped : List TItem, s.complete.Perm (popped ++ s'.complete) ∧ (∀ x ∈ popped, x.origin = o) ∧
      s'.forest = (s.forest.1 ++ popped.map fun x => (x.dot, x.node), s.forest.2) := by
  intro k
  induction k with
  | zero => intro s s' _ h; rw [← pure_inj_M h]; exact ⟨[], List.Perm.refl _, by simp, by simp⟩
  | succ k ih =>
    intro s s' hs h
    unfold summandLoop at h
    obtain ⟨⟨s1, x⟩, h1, h⟩ := bind_eq_pure h
    unfold nextSummand at h1
    cases hc : s.complete with
    | nil =>
      simp only [hc, Heap.peek, List.getElem?_nil] at h1
      have := pure_inj_M h1
      simp only [Prod.mk.injEq] at this
      obtain ⟨rfl, rfl⟩ := this
      rw [← pure_inj_M h, hc]
      exact ⟨[], List.Perm.refl _, by simp, by simp⟩
    | cons top tl =>
      rw [hc] at hs
      have hp := Heap.pop_spec (top :: tl) hs
      simp only [hc, Heap.peek, List.getElem?_cons_zero] at h1 hp
      obtain ⟨l, _, h1⟩ := bind_eq_pure h1
      split at h1
      · next heq =>
        obtain ⟨⟨heap, y⟩, h2, h1⟩ := bind_eq_pure h1
        obtain ⟨hp1, hp2, hp3⟩ := hp.of_eq h2
        have := pure_inj_M h1
        simp only [Prod.mk.injEq] at this
        obtain ⟨rfl, rfl⟩ := this
        obtain ⟨s2, h3, h⟩ := bind_eq_pure h
        have h3 := pure_inj_M (show (pure { s with complete := heap, forest := (s.forest.1 ++ [(top.dot, top.node)], s.forest.2) } : M SRec)
          = pure s2 from h3)
        subst h3
        obtain ⟨popped, e1, e2, e3⟩ := ih hp3 h
        refine ⟨top :: popped, ?_, ?_, ?_⟩
        · exact hp2.trans (List.Perm.cons _ e1)
        · intro x hx
          rcases List.mem_cons.1 hx with rfl | hx
          · exact heq.1.symm
          · exact e2 x hx
        · rw [e3]; simp
      · have := pure_inj_M h1
        simp only [Prod.mk.injEq] at this
        obtain ⟨rfl, rfl⟩ := this
        rw [← pure_inj_M h, hc]
        exact ⟨[], List.Perm.refl _, by simp, by simp⟩

theorem completeEntireSum_sep {o A : Nat} {s s' : SRec} (hs : Heap.IsHeap s.complete) (hsep : s.complete.Pairwise SepI)
    (h : completeEntireSum (sepEnv g la so) s o A = pure s') : s.forest.2 → s'.forest.2 := by
  unfold completeEntireSum at h
  obtain ⟨f, h1, h⟩ := bind_eq_pure h
  obtain ⟨s1, h2, h⟩ := bind_eq_pure h
  obtain ⟨⟨s2, n⟩, h3, h⟩ := bind_eq_pure h
  have h := pure_inj_M h
  subst h
  have h1 := pure_inj_M (show (pure ([], s.forest.2) : M SepState) = pure f from h1)
  subst h1
  obtain ⟨popped, e1, e2, e3⟩ := summandLoop_sep _ (s := { s with forest := ([], s.forest.2) }) hs h2
  unfold completeSum at h3
  obtain ⟨⟨f2, m⟩, h5, h3⟩ := bind_eq_pure h3
  obtain ⟨s3, h6, h3⟩ := bind_eq_pure h3
  have h3 := pure_inj_M h3
  simp only [Prod.mk.injEq] at h3
  obtain ⟨rfl, rfl⟩ := h3
  have h5 := pure_inj_M (show (pure ((s1.forest.1, s1.forest.2 ∧ s1.forest.1.Pairwise Sep), summandTrees s1.forest.1) : M _)
    = pure (f2, m) from h5)
  simp only [Prod.mk.injEq] at h5
  intro hok
  rw [completeSym_sep h6]
  show f2.2
  rw [← h5.1]
  refine ⟨by rw [e3]; exact hok, ?_⟩
  rw [e3]
  simp only [List.nil_append, List.pairwise_map]
  have hpw := (List.pairwise_append.1 (EC.pairwise_sepI_perm e1 hsep)).1
  exact hpw.imp_of_mem fun {a b} ha hb h => h (by rw [e2 a ha, e2 b hb])

end Rec

theorem forall₂_irel_eq {w : sepSim.γ} {l m : List TItem} (h : List.Forall₂ (sepSim.IRel w) l m) : l = m := by
  induction h with
  | nil => rfl
  | @cons a b _ _ h _ ih =>
    obtain ⟨h1, h2, _, h3⟩ := h
    rw [ih]
    obtain ⟨_, _, _⟩ := a
    obtain ⟨_, _, _⟩ := b
    simp only at h1 h2
    have h3 : _ = _ := h3
    simp only at h3
    rw [h1, h2, h3]

/-- All sums of the completion loop have separate summands. -/
theorem groups_sep {g : DefaultGrammar} {la : Bool} {so : Sorter} {s s' : SRec} {l : List (Nat × Nat)}
    (h : Rec.Groups (sepEnv g la so) s l s') : ∀ {t : TRec} {c : EC} {scans Fd popped cur loc toks},
    c.g = g → c.la = la → c.sorter = so → c.OK → c.Mid scans t Fd popped cur →
    c.Keeps toks (c.JSep loc toks) → c.JSep loc toks toks t.complete cur → sepSim.RIdle () s t → s.forest.2 → s'.forest.2 := by
  induction h with
  | done h1 => intro t c scans Fd popped cur loc toks _ _ _ _ _ _ _ _ h; exact h
  | @next s s1 s2 o A l h1 h2 _ ih =>
    intro t c scans Fd popped cur loc toks e1 e2 e3 hc hm hk hj hr hok
    have e1' := e1
    have e2' := e2
    have e3' := e3
    subst e1 e2 e3
    have hd : DotsOK c.g fun _ => True := ⟨fun _ _ _ _ _ => trivial, fun _ _ _ _ _ => trivial, fun _ _ _ _ _ => trivial⟩
    obtain ⟨r, h3, h4⟩ := EC.Mid.step hc hm
    have h3' := h3
    unfold Rec.completeStep at h3
    obtain ⟨x, h5, h6⟩ := bind_eq_pure h3
    have hx := pure_inj_M (h1.symm.trans ((FSim.nextSum_rel (g := c.g) (la := c.la) (leo := false) (so := c.sorter) hr).trans h5))
    subst hx
    simp only at h6
    obtain ⟨t1, h7, h8⟩ := bind_eq_pure h6
    have := pure_inj_M h8
    subst this
    obtain ⟨G, rest, o', A', Fd', popped', cur', hm', hol, hG, hperm, hkey, hrest, hperm', _, hcur⟩ := h4
    have hr' := (FSim.completeEntireSum_rel (g := c.g) (la := c.la) (leo := false) (so := c.sorter) hd hr o A h1).both h2 h7
    obtain ⟨_, _, hr'⟩ := hr'
    have hheq : s.complete = t.complete := forall₂_irel_eq hr.complete
    have hj' := hk.step _ _ _ _ _ _ _ hj hG hperm hm.hitems hkey hrest hperm'
    rw [← hcur] at hj'
    refine ih e1' e2' e3' hc hm' hk hj' hr' ?_
    exact Rec.completeEntireSum_sep (by rw [hheq]; exact hm.heap) (by rw [hheq]; exact hj.1) h2 hok

end Gearley

namespace Gearley
open Gearley.Spec

section
variable {g : DefaultGrammar} {R : Rules} {root : Nat → Nat}

/-- The state after a session, with the places of its sets. -/
theorem new_loc (hg : GrammarOK g R root) {rank : Nat → Nat} (hrank : EC.Ranked R rank) {steps : List Step} {la sorter}
    (hlen : steps.length < 2 ^ 64) (hok : StepsOK g steps) (htt : TermToks R (inputOf steps)) (hord : EC.Ordered R)
    (f : List PTree) :
    Returns (Rec.new (treeEnv g la sorter) f >>= Rec.session (treeEnv g la sorter) steps) fun r =>
      r.2 = true → ∃ S loc, Rest g R r.1 S ∧ S.length ≤ steps.length + 1 ∧ ∀ c : EC, c.S = S → c.LocOK loc := by
  have hT : LookaheadOK g R (fun _ => False) := ⟨fun _ _ _ _ h => h.elim, fun _ _ _ _ _ h => h.elim⟩
  have hP := pred_predOK (R := R) g.startSym (extendBy steps [])
  refine returns_bind ((new_spec (n := 0) (H := False) hg hP f).mono ?_)
  rintro s ⟨hs, hl⟩
  refine (session_inv hg hT hrank hP steps s 0 _ _ hs (by omega) hok (extendBy_in _ _) fun h => h.elim).mono ?_
  rintro ⟨s', ok⟩ hr hok1
  simp only [Nat.zero_add] at hr hok1
  have key : ∀ S loc, InvAt g R (extendBy steps []) 0 False (Pred R g.startSym (extendBy steps [])) (fun _ => False) s'
      steps.length S loc →
      ∃ S loc, Rest g R s' S ∧ S.length ≤ steps.length + 1 ∧ ∀ c : EC, c.S = S → c.LocOK loc := by
    intro S loc h
    refine ⟨S, loc, h.rest, h.sound.length_le h.rest.pos, fun c hc => ?_⟩
    refine ⟨h.sound.mono, ?_, ?_⟩
    · intro k l hl it hit t ht
      rw [hc] at hl
      obtain ⟨A, B, C, a, b, _, h1, h2, h3, _⟩ := h.sound.fact k l hl (it.dot, it.origin, t) (mem_facts.2 ⟨it, hit, rfl, rfl, ht⟩)
      exact ⟨a, h1, by rw [h3.width]; exact h2⟩
    · intro l hl
      rw [hc] at hl
      rw [List.nodup_iff_count_le_one]
      rintro ⟨d, o⟩
      by_cases hx : (d, o) ∈ l.map dotOrigin
      · obtain ⟨it, hit, he⟩ := List.mem_map.1 hx
        obtain ⟨A, B, C, hR⟩ := h.rest.binary l hl it hit
        simp only [dotOrigin, Prod.mk.injEq] at he
        refine h.ordered hord (extendBy_term htt (by simp)) l hl d o ⟨B, ?_⟩
        simp [rhs0Of, ← he.1, hR]
      · rw [List.count_eq_zero.2 hx]; omega
  rcases hr with ⟨_, h2⟩ | ⟨h1, _⟩
  · rcases h2 with ⟨rfl, rfl⟩ | ⟨_, S', loc', h3, h4, _⟩
    · exact key _ _ hs
    · exact key _ _ h3
  · rw [hok1] at h1; simp at h1

/-- In every session, all sums have separate summands. -/
theorem session_sep (hg : GrammarOK g R root) {rank : Nat → Nat} (hrank : EC.Ranked R rank) (hord : EC.Ordered R)
    {la : Bool} {so : Sorter} {steps : List Step} (hlen : steps.length + 1 < 2 ^ 64) (hok : StepsOK g steps)
    (htt : ∀ st ∈ steps, (st.2.map (·.1)).Nodup ∧ ∀ t ∈ st.2, Terminal R t.1) {r : SRec × Bool}
    (hr : (Rec.new (sepEnv g la so) ([], True) >>= Rec.session (sepEnv g la so) steps) = pure r) : r.1.forest.2 := by
  have hd : DotsOK g fun _ => True := ⟨fun _ _ _ _ _ => trivial, fun _ _ _ _ _ => trivial, fun _ _ _ _ _ => trivial⟩
  have key : ∀ steps : List Step, steps.length + 1 < 2 ^ 64 → StepsOK g steps →
      (∀ st ∈ steps, (st.2.map (·.1)).Nodup ∧ ∀ t ∈ st.2, Terminal R t.1) →
      ∃ r, (Rec.new (sepEnv g la so) ([], True) >>= Rec.session (sepEnv g la so) steps) = pure r ∧ (r.2 = true →
        ∃ t S loc, Rest g R t S ∧ S.length ≤ steps.length + 1 ∧ (∀ c : EC, c.S = S → c.LocOK loc) ∧
          sepSim.RIdle () r.1 t) := by
    intro steps hlen hok htt
    have htt' : TermToks R (inputOf steps) := by
      intro i
      unfold inputOf
      cases hst : steps[i]? with
      | none => simp
      | some st => exact htt st (List.mem_of_getElem? hst)
    obtain ⟨r, h, r0, w', hq, hrel, hr0⟩ := sim_run (la := la) (so := so) sepSim hd (f0 := []) (w := ()) (f := ([], True)) trivial
      (fun st hst p hp => trivial)
      (new_loc (la := la) (sorter := so) hg hrank (by omega) hok htt' hord [])
    refine ⟨r, h, fun ht => ?_⟩
    obtain ⟨S, loc, hrest, hSl, hl⟩ := hq (hr0 ▸ ht)
    exact ⟨r0.1, S, loc, hrest, hSl, hl, hrel⟩
  induction steps using List.reverseRecOn generalizing r with
  | nil =>
    obtain ⟨s0, h0, h1⟩ := bind_eq_pure hr
    have h1 := pure_inj_M h1
    unfold Rec.new at h0
    obtain ⟨p, _, h0⟩ := bind_eq_pure h0
    rw [← h1, ← pure_inj_M h0]
    trivial
  | append_singleton pre st ih =>
    have hsub : ∀ x ∈ pre, x ∈ pre ++ [st] := fun x h => List.mem_append_left _ h
    simp only [List.length_append, List.length_singleton] at hlen
    have hp1 : StepsOK g pre := fun x h => hok x (hsub x h)
    have hp3 := fun x h => htt x (hsub x h)
    obtain ⟨r1, hr1, hrest1⟩ := key pre (by omega) hp1 hp3
    have hi := ih (by omega) hp1 hp3 hr1
    obtain ⟨s0, h0, hr⟩ := bind_eq_pure hr
    rw [h0, pure_bind] at hr1
    obtain ⟨op, toks⟩ := st
    rw [Rec.session_snoc, hr1, pure_bind] at hr
    obtain ⟨s1, ok⟩ := r1
    cases ok with
    | false =>
      simp only [Bool.false_eq_true, if_false] at hr
      rw [← pure_inj_M hr]
      exact hi
    | true =>
      simp only [if_true] at hr
      obtain ⟨t, S, loc, h1, h2, h3, h4⟩ := hrest1 rfl
      have hst := hok (op, toks) (by simp)
      have h1' := Props.rest_hint h1 hst.1
      have h4' : sepSim.RIdle () (Rec.applyHint s1 op) (Rec.applyHint t op) := FSim.applyHint_rel h4 op
      have hf1 : (Rec.applyHint s1 op).forest = s1.forest := by cases op <;> rfl
      unfold Rec.position Rec.positionWith at hr
      obtain ⟨s2, h5, hr⟩ := bind_eq_pure hr
      have hs2 : s2.forest = s1.forest := by
        rw [Rec.scanAll_sep h5]; exact hf1
      unfold Rec.endEarlemeWith at hr
      obtain ⟨b, _, hr⟩ := bind_eq_pure hr
      cases b with
      | true =>
        simp only [if_true] at hr
        rw [← pure_inj_M hr]
        show s2.forest.2
        rw [hs2]; exact hi
      | false =>
        simp only [Bool.false_eq_true, if_false] at hr
        obtain ⟨s3, h6, hr⟩ := bind_eq_pure hr
        obtain ⟨s4, h7, hr⟩ := bind_eq_pure hr
        rw [← pure_inj_M hr]
        obtain ⟨l, s5, h8, rfl⟩ := groups_of_completeAll h6
        have hc := h1'.ok hg (la := la) (sorter := so)
        have htk := htt (op, toks) (by simp)
        have hkeep := EC.keeps_sep hc (h3 (ctxOf g R root la so (Rec.applyHint t op) S) rfl) hord htk.1 htk.2
        have hmid : (ctxOf g R root la so (Rec.applyHint t op) S).Mid 0 (Rec.applyHint t op).beginEarleme 0 0 [] := by
          refine ⟨?_, ?_, rfl, rfl, by simp, ?_, by simp, ?_, by simp⟩
          · simp only [Rec.beginEarleme, h1'.medial, Vec2d.nextSet_eq]; rfl
          · show Heap.IsHeap (Rec.applyHint t op).complete
            rw [h1'.empty]; exact Heap.isHeap_nil
          · show facts (Rec.applyHint t op).complete + 0 = _
            rw [h1'.empty]; simp
          · show ∀ it ∈ (Rec.applyHint t op).complete, _
            rw [h1'.empty]; simp
        have hJ0 : (ctxOf g R root la so (Rec.applyHint t op) S).JSep loc toks [] (Rec.applyHint t op).beginEarleme.complete [] := by
          show (ctxOf g R root la so (Rec.applyHint t op) S).JSep loc toks [] (Rec.applyHint t op).complete []
          rw [h1'.empty]; exact hkeep.init
        obtain ⟨t1, ht1, cur1, hm1, hj1⟩ := scanAll_spec hc h1'.pos (show S.length < _ by omega) hkeep [] toks rfl hst.2 hmid hJ0
        obtain ⟨_, _, hrel2⟩ := (FSim.scanAll_rel (S := sepSim) (g := g)
          (la := la) (leo := false) (so := so) hd (FSim.begin_rel h4') (toks := toks) (fun _ _ => trivial)).both h5 ht1
        have hgr := groups_sep h8 (c := ctxOf g R root la so (Rec.applyHint t op) S) rfl rfl rfl hc hm1 hkeep hj1 hrel2
          (by rw [hs2]; exact hi)
        have e1 := (Rec.advance_keeps h7).1
        show s4.forest.2
        rw [e1]
        exact hgr

end
end Gearley
