import Verif.Proofs.Groups
import Verif.Props.Recognition

/-!
# C09, C10, C12, C15, C26, C35, C37: the chart
-/

namespace Gearley.Props
open Gearley.Spec
variable {σ ν : Type} {c : Cfg} {n : Nat} {w : WrappedRoot} {E : Env σ ν} {f : σ}

/-- The listed positions are the set bits of a row. -/
theorem mem_bits {row : List Bool} {x : Nat} :
    x ∈ ((row.zipIdx.filter fun p => p.1).map fun p => p.2) ↔ row[x]? = some true := by
  simp [List.mem_zipIdx_iff_getElem?]

theorem predictedSymbols_eq {s : Rec σ ν} {l : List Nat} :
    s.predictedSymbols = pure l ↔ ∃ row, s.predicted.rows[s.earleme]? = some row ∧
      l = (row.zipIdx.filter fun p => p.1).map fun p => p.2 := by
  unfold Rec.predictedSymbols BitMatrix.row indexM
  cases h : s.predicted.rows[s.earleme]? with
  | none =>
    simp only [panicM_bind]
    constructor
    · intro h; exact absurd h panicM_ne_pure
    · rintro ⟨_, h, _⟩; simp at h
  | some row =>
    simp only [pure_bind, pure_inj_M_iff, Option.some.injEq, exists_eq_left']
    exact eq_comm

/-- C09. Without hints, `predicted_symbols` after `begin_earleme` lists exactly the symbols `X` such that what was read so
far, followed by `X`, is the beginning of a sentential form. -/
theorem C09_predicted_symbols (hB : Built c n w E.g) (hleo : E.leo = false)
    (hF : SafeStart E.F f c.rules.length c.numSyms) {steps : List Step} (htok : TokensOK c.numSyms steps)
    (hstart : ∀ st ∈ steps, ∀ t ∈ st.2, t.1 ≠ w.root) (hno : NoHints steps) (hlen : steps.length + 1 < 2 ^ 64) :
    ∃ r, (Rec.new E f >>= Rec.session E steps) = pure r ∧ (r.2 = true →
      ∃ l, r.1.beginEarleme.predictedSymbols = pure l ∧ ∀ X, X ∈ l ↔ X < n ∧
        ∃ u v, u.length = steps.length ∧ Picks (inputOf steps) 0 u ∧ Derives (rulesOf c) w.root (u ++ X :: v)) := by
  obtain ⟨root, rank, g0, hR⟩ := hB.ready
  obtain ⟨r, h, r0, ⟨_, hq⟩, hr0, hpred, hml, _⟩ := safe_run hleo hR hF htok fun f0 =>
    new_viable (la := E.lookahead) (sorter := E.sorter) hR.ok hR.ranked (by omega)
      (stepsOK_of hR htok fun st hst x hx => absurd hx (hno st hst x)) (fun _ => hno) (by rw [hR.start]; exact hstart) f0
  refine ⟨r, h, fun ht => ?_⟩
  obtain ⟨S, loc, hinv, hbit⟩ := hq (hr0 ▸ ht)
  have hpos := hinv.rest.pos
  have hmlen : r.1.medial.len = S.length := by rw [hml, hinv.rest.medial, Vec2d.len_eq]
  have hearl : r.1.beginEarleme.earleme = S.length - 1 := by
    have : r.1.beginEarleme.medial.len = S.length + 1 := by
      rw [← hmlen]; simp [Rec.beginEarleme, Vec2d.nextSet, Vec2d.len]
    rw [Rec.earleme, this, wrappingSub2, if_pos (by omega)]
    omega
  have hrows := hinv.rest.rows
  have hlt : S.length - 1 < r.1.predicted.rows.length := by rw [hpred]; omega
  refine ⟨_, predictedSymbols_eq.2 ⟨r.1.predicted.rows[S.length - 1], ?_, rfl⟩, ?_⟩
  · rw [hearl]
    exact List.getElem?_eq_getElem hlt
  · intro X
    rw [mem_bits]
    have hb : r.1.predicted.rows[S.length - 1][X]? = some true ↔ r0.1.predicted.bit (S.length - 1) X = true := by
      rw [← hpred, BitMatrix.bit_iff]
      constructor
      · intro h; exact ⟨_, List.getElem?_eq_getElem hlt, h⟩
      · rintro ⟨row, h1, h2⟩
        rw [List.getElem?_eq_getElem hlt] at h1
        rw [Option.some.inj h1]; exact h2
    have hX : r0.1.predicted.bit (S.length - 1) X = true → X < n := by
      intro h
      have := (bit_lt hinv.rest.rowLen h).2
      rw [hR.syms] at this; exact this
    rw [hb]
    constructor
    · intro h
      have h1 := hX h
      refine ⟨h1, ?_⟩
      rw [hbit X (by rw [hR.syms]; exact h1), hR.start] at h
      exact h
    · rintro ⟨h1, h2⟩
      rw [hbit X (by rw [hR.syms]; exact h1), hR.start]
      exact h2

/-- C10. In any state, scanning an ordinary symbol that is not predicted changes nothing except that a leaf is added to
the forest. -/
theorem C10_scan_unpredicted {s s' : Rec σ ν} {l : List Nat} {sym val : Nat} (hl : s.predictedSymbols = pure l)
    (hsym : sym < E.g.syms) (hnot : sym ∉ l) (h : Rec.scan E s sym val = pure s') :
    s' = { s with forest := s'.forest } ∧
      ∃ node, E.F.leaf s.forest sym (s.earleme + 1) val = pure (s'.forest, node) := by
  unfold Rec.scan at h
  obtain ⟨_, _, h⟩ := bind_eq_pure h
  obtain ⟨⟨f1, node⟩, h1, h⟩ := bind_eq_pure h
  obtain ⟨row, h2, h3⟩ := predictedSymbols_eq.1 hl
  subst h3
  rw [mem_bits] at hnot
  unfold Rec.completeSym at h
  dsimp only at h
  rw [if_neg (by omega)] at h
  obtain ⟨b, h3, h⟩ := bind_eq_pure h
  have hb : b = false := by
    unfold BitMatrix.get BitMatrix.row at h3
    obtain ⟨row', h4, h5⟩ := bind_eq_pure h3
    have h4' : s.predicted.rows[s.earleme]? = some row' := indexM_pure h4
    rw [h2] at h4'
    have := Option.some.inj h4'
    subst this
    have h5' : row[sym]? = some b := indexM_pure h5
    rw [h5'] at hnot
    simpa using hnot
  subst hb
  simp only [Bool.false_eq_true, if_false] at h
  have := pure_inj_M h
  subst this
  exact ⟨rfl, node, h1⟩

theorem forall₂_mem {α β : Type} {R : α → β → Prop} {l : List α} {m : List β} (h : List.Forall₂ R l m) {a : α} (ha : a ∈ l) :
    ∃ b ∈ m, R a b := by
  induction h with
  | nil => simp at ha
  | cons hr _ ih =>
    rcases List.mem_cons.1 ha with rfl | ha
    · exact ⟨_, by simp, hr⟩
    · obtain ⟨b, hb, h⟩ := ih ha
      exact ⟨b, by simp [hb], h⟩

theorem forall₂_mem' {α β : Type} {R : α → β → Prop} {l : List α} {m : List β} (h : List.Forall₂ R l m) {b : β} (hb : b ∈ m) :
    ∃ a ∈ l, R a b := by
  induction h with
  | nil => simp at hb
  | cons hr _ ih =>
    rcases List.mem_cons.1 hb with rfl | hb
    · exact ⟨_, by simp, hr⟩
    · obtain ⟨b, hb, h⟩ := ih hb
      exact ⟨b, by simp [hb], h⟩

/-- C12. Without hints, whatever sets were dropped: the sets that are left correspond to strictly increasing input
positions `loc`, from the first position to the current one, and the items of the current set are exactly the Earley items
of the current position. -/
theorem C12_items_exact (hB : Built c n w E.g) (hleo : E.leo = false)
    (hF : SafeStart E.F f c.rules.length c.numSyms) {steps : List Step} (htok : TokensOK c.numSyms steps)
    (hno : NoHints steps) (hlen : steps.length + 1 < 2 ^ 64) :
    ∃ r, (Rec.new E f >>= Rec.session E steps) = pure r ∧ (r.2 = true →
      ∃ (loc : List Nat) (items : List (Item ν)), r.1.beginEarleme.medialItems = pure items ∧
        loc.length = r.1.medial.len ∧ loc.Pairwise (· < ·) ∧ loc[0]? = some 0 ∧ loc.getLast? = some steps.length ∧
        (∀ it ∈ items, it.origin < loc.length) ∧
        ∀ d a, (∃ it ∈ items, it.dot = d ∧ loc[it.origin]? = some a) ↔
          EarleyItem (rulesOf c) w.root (inputOf steps) d a steps.length) := by
  obtain ⟨root, rank, g0, hR⟩ := hB.ready
  obtain ⟨r, h, r0, hq, hr0, _, hml, hmed, _⟩ := safe_run hleo hR hF htok fun f0 =>
    new_items (la := E.lookahead) (sorter := E.sorter) hR.ok hR.ranked (by omega)
      (stepsOK_of hR htok fun st hst x hx => absurd hx (hno st hst x)) (fun _ => hno) f0
  refine ⟨r, h, fun ht => ?_⟩
  obtain ⟨S, loc, last, h1, h2, h3, h4, h5, h6, h7, h8, _⟩ := hq (hr0 ▸ ht)
  have hS : 0 < S.length := by
    cases S with
    | nil => simp at h2
    | cons _ _ => simp
  obtain ⟨S', hSe⟩ : ∃ S', S = S' ++ [last] := by
    obtain ⟨h9, h10⟩ := List.getLast?_eq_some_iff.1 h2
    exact ⟨h9, h10⟩
  have hlen' : r.1.medial.len = S.length := by rw [hml, h1, Vec2d.len_eq]
  have hearl : r.1.beginEarleme.earleme = S.length - 1 := by
    have : r.1.beginEarleme.medial.len = S.length + 1 := by
      rw [← hlen']; simp [Rec.beginEarleme, Vec2d.nextSet, Vec2d.len]
    rw [Rec.earleme, this, wrappingSub2, if_pos (by omega)]
    omega
  have htree : r0.1.medial.nextSet.index (S.length - 1) = pure last := by
    rw [h1, Vec2d.nextSet_eq]
    refine Vec2d.index_eq _ _ _ (by simp; omega) ?_
    subst hSe
    simp
  obtain ⟨items, h9, h10⟩ := (hmed.nextSet.index (lax := False) (S.length - 1)).returns htree
  refine ⟨loc, items, ?_, by rw [h3, hlen'], h6, h4, h5, ?_, ?_⟩
  · unfold Rec.medialItems
    rw [hearl]; exact h9
  · intro it hit
    obtain ⟨it', hit', h11⟩ := forall₂_mem h10 hit
    rw [h11.2, h3]; exact h7 it' hit'
  · intro d a
    rw [← hR.start, ← h8]
    constructor
    · rintro ⟨it, hit, rfl, ha⟩
      obtain ⟨it', hit', h11⟩ := forall₂_mem h10 hit
      exact ⟨it', hit', h11.1.symm, by rw [← h11.2]; exact ha⟩
    · rintro ⟨it, hit, rfl, ha⟩
      obtain ⟨it', hit', h11⟩ := forall₂_mem' h10 hit
      exact ⟨it', hit', h11.1, by rw [h11.2]; exact ha⟩


/-! ### C15 -/

theorem rest_hint {g : DefaultGrammar} {R : Rules} {s : Rec (List PTree) (List PTree)} {S} (h : Rest g R s S)
    {op : Rec.HintOp} (hop : ∀ x, op = .set x → x < g.syms) : Rest g R (Rec.applyHint s op) S := by
  cases op with
  | keep => exact h
  | set x =>
    refine { h with hint := ?_ }
    intro y hy
    simp only [Rec.applyHint, Rec.setHint, Option.some.injEq] at hy
    rw [← hy]; exact hop x rfl
  | clear => exact { h with hint := fun y hy => by simp [Rec.applyHint, Rec.clearHint] at hy }

theorem ridle_lax {F : ForestOps σ ν} {okDot okLeaf} {S : FSim False F treeForest okDot okLeaf} {w : S.γ} {s : Rec σ ν}
    {t : Rec (List PTree) (List PTree)} (h : S.RIdle w s t) : (laxSim F treeForest).RIdle () s t :=
  ⟨h.lookahead, h.predicted, h.medial.mono fun _ _ h => ⟨h.1, h.2.1, trivial, trivial⟩,
    h.complete.imp fun _ _ h => ⟨h.1, h.2.1, trivial, trivial⟩, trivial⟩

/-- One-symbol rules are numbered with the left-hand side below the right-hand side. -/
def UnaryOrdered (R : Rules) : Prop := ∀ r ∈ R, r.rhs1 = none → r.lhs < r.rhs0

/-- C15. Take any session that got through, with any hints, and let any tokens be scanned at the next position. Then the
completion pass of `end_earleme` goes through groups (origin, left-hand side) in strictly decreasing order. In particular
no group is completed twice. If the tokens are distinct terminals, the current set of the session has no item twice. -/
theorem C15_groups_decrease (hB : Built c n w E.g) (hleo : E.leo = false) (ho : UnaryOrdered (rulesOf c))
    (hF : SafeStart E.F f c.rules.length c.numSyms) {steps : List Step} (htok : TokensOK c.numSyms steps)
    (hin : HintsIn n steps) (hlen : steps.length + 1 < 2 ^ 64) :
    ∃ r, (Rec.new E f >>= Rec.session E steps) = pure r ∧ (r.2 = true →
      (∀ op toks, (∀ x, op = .set x → x < n) → (∀ t ∈ toks, t.1 < c.numSyms ∧ t.2 < 2 ^ 32) →
        ∃ s1 l s2, Rec.scanAll E (Rec.applyHint r.1 op).beginEarleme toks = pure s1 ∧
          Rec.completeAll E s1 = pure s2.clearHint ∧ Rec.Groups E s1 l s2 ∧
          l.Pairwise fun a b => b.1 < a.1 ∨ b.1 = a.1 ∧ b.2 < a.2) ∧
      ((∀ st ∈ steps, (st.2.map (·.1)).Nodup ∧ Terminals c n (st.2.map (·.1))) →
        ∃ items, r.1.beginEarleme.medialItems = pure items ∧
          (items.map fun it => (it.dot, it.origin)).Nodup)) := by
  obtain ⟨root, rank, g0, hR⟩ := hB.ready
  obtain ⟨okDot, okLeaf, SF, w0, hI, hd, hl⟩ := hF
  have hd' := hR.dots hd
  have := sim_run (la := E.lookahead) (so := E.sorter) SF.sim hd' (f0 := []) (w := w0) hI
    (fun st hst p hp => hl p.1 p.2 (htok st hst p hp).1 (htok st hst p hp).2)
    (new_rest (la := E.lookahead) (sorter := E.sorter) hR.ok hR.ranked (by omega) (stepsOK_of hR htok hin) [])
  rw [env_eta hleo] at this
  obtain ⟨r, h, r0, w', hq, hrel, hr0⟩ := this
  refine ⟨r, h, fun ht => ?_⟩
  obtain ⟨S, hrest, hSl, _, hnd⟩ := hq (hr0 ▸ ht)
  refine ⟨?_, ?_⟩
  · intro op toks hop htk
    have hrest' := rest_hint hrest (op := op) (by rw [hR.syms]; exact hop)
    have hrel' : (SF.sim).RIdle w' (Rec.applyHint r.1 op).beginEarleme (Rec.applyHint r0.1 op).beginEarleme := by
      cases op <;> exact ⟨by simp [Rec.applyHint, Rec.setHint, Rec.clearHint, Rec.beginEarleme, hrel.lookahead],
        hrel.predicted, hrel.medial.nextSet, hrel.complete, hrel.forest⟩
    obtain ⟨t1, ht1, scans, cur, hmid⟩ := mid_of_rest hR.ok (la := E.lookahead) (sorter := E.sorter) hrest' (by omega) toks
      (by rw [hR.all]; exact fun t h => (htk t h).1)
    obtain ⟨s1, hs1, w1, _, hrel1⟩ := (FSim.scanAll_rel (g := E.g) (la := E.lookahead) (leo := false) (so := E.sorter) hd'
      hrel' (toks := toks) (fun p hp => hl p.1 p.2 (htk p hp).1 (htk p hp).2)).returns ht1
    have hc := hrest'.ok hR.ok (la := E.lookahead) (sorter := E.sorter)
    obtain ⟨t2, ht2, _⟩ := (EC.completeAll_spec' hc hmid (fun _ _ => True) (.inr (hR.ranked.settles _)) trivial
      (EC.keeps_true _ toks).step).returns
    obtain ⟨s2, hs2, _⟩ := (FSim.completeAll_rel (g := E.g) (la := E.lookahead) (leo := false) (so := E.sorter) hd'
      hrel1).returns ht2
    rw [env_eta hleo] at hs1 hs2
    obtain ⟨l, s3, hg3, rfl⟩ := groups_of_completeAll hs2
    have hg3' := hg3
    rw [← env_eta hleo] at hg3'
    obtain ⟨t3, hgt⟩ := groups_lax hg3' (c := ctxOf E.g (rulesOf c) root E.lookahead E.sorter (Rec.applyHint r0.1 op) S)
      rfl rfl rfl hc hmid (ridle_lax hrel1)
    exact ⟨s1, l, s3, hs1, hs2, hg3, (EC.groups_decreasing hc ho hgt hmid).1⟩
  · intro hterm
    have htt : TermToks (rulesOf c) (inputOf steps) := by
      intro i
      unfold inputOf
      cases hst : steps[i]? with
      | none => simp
      | some st =>
        have := hterm st (List.mem_of_getElem? hst)
        exact ⟨this.1, fun t ht => (this.2 t.1 (List.mem_map_of_mem ht)).2⟩
    have hnd := hnd htt ho
    have hpos := hrest.pos
    obtain ⟨S', last, hSe⟩ : ∃ S' last, S = S' ++ [last] :=
      ⟨S.dropLast, S.getLast (by intro h; simp [h] at hpos), (List.dropLast_concat_getLast _).symm⟩
    have hmlen : r.1.medial.len = S.length := by rw [hrel.medial.len, hrest.medial, Vec2d.len_eq]
    have hearl : r.1.beginEarleme.earleme = S.length - 1 := by
      have : r.1.beginEarleme.medial.len = S.length + 1 := by
        rw [← hmlen]; simp [Rec.beginEarleme, Vec2d.nextSet, Vec2d.len]
      rw [Rec.earleme, this, wrappingSub2, if_pos (by omega)]
      omega
    have htree : r0.1.medial.nextSet.index (S.length - 1) = pure last := by
      rw [hrest.medial, Vec2d.nextSet_eq]
      refine Vec2d.index_eq _ _ _ (by simp; omega) ?_
      subst hSe
      simp
    obtain ⟨items, h9, h10⟩ := (hrel.medial.nextSet.index (lax := False) (S.length - 1)).returns htree
    refine ⟨items, by unfold Rec.medialItems; rw [hearl]; exact h9, ?_⟩
    have hlast := hnd last (by rw [hSe]; simp)
    have : items.map (fun it => (it.dot, it.origin)) = last.map dotOrigin := by
      clear h9 htree hSe hlast
      induction h10 with
      | nil => rfl
      | cons hab _ ih => simp only [List.map_cons, dotOrigin, hab.1, hab.2.1]; rw [ih]
    rw [this]
    exact hlast

/-! ### C26 -/

/-- C26. After any session that got through at least one position, with any hints, `finished_node` returns the node of an
item for the rule `root ::= _ eof` if the current set has one, and nothing otherwise. -/
theorem C26_finished_node (hB : Built c n w E.g) (hleo : E.leo = false)
    (hF : SafeStart E.F f c.rules.length c.numSyms) {steps : List Step} (htok : TokensOK c.numSyms steps)
    (hin : HintsIn n steps) (hlen : steps.length + 1 < 2 ^ 64) (hne : steps ≠ []) :
    ∃ r, (Rec.new E f >>= Rec.session E steps) = pure r ∧ (r.2 = true →
      ∃ items node, r.1.medial.last = pure items ∧ Rec.finishedNode E r.1 = pure node ∧
        (node.isSome ↔ ∃ it ∈ items, ∃ g0, (rulesOf c)[it.dot]? = some ⟨w.root, g0, some w.eof⟩) ∧
        ∀ x, node = some x → ∃ it ∈ items, it.node = x ∧ ∃ g0, (rulesOf c)[it.dot]? = some ⟨w.root, g0, some w.eof⟩) := by
  obtain ⟨root, rank, g0, hR⟩ := hB.ready
  obtain ⟨r, h, r0, hq, hr0, _, hml, hmed, _⟩ := safe_run hleo hR hF htok fun f0 =>
    new_rest (la := E.lookahead) (sorter := E.sorter) hR.ok hR.ranked (by omega) (stepsOK_of hR htok hin) f0
  refine ⟨r, h, fun ht => ?_⟩
  obtain ⟨S, hrest, hSl, hS2, _⟩ := hq (hr0 ▸ ht)
  have hS2 := hS2 hne
  obtain ⟨S', last, hSe⟩ : ∃ S' last, S = S' ++ [last] :=
    ⟨S.dropLast, S.getLast (by intro h; simp [h] at hS2), (List.dropLast_concat_getLast _).symm⟩
  have hmem : last ∈ S := by rw [hSe]; simp
  have htree : r0.1.medial.last = pure last := by rw [hrest.medial, hSe, Vec2d.last_eq]
  obtain ⟨items, hit, hrel⟩ := (hmed.last (lax := False)).returns htree
  have hearl : r.1.earleme = S.length - 2 := by
    rw [Rec.earleme, hml, hrest.medial, Vec2d.len_eq, wrappingSub2, if_pos hS2]
  have hnm : (r.1.earleme == maxUsize) = false := by
    rw [hearl]; simp only [maxUsize, beq_eq_false_iff_ne]; omega
  have hrule := hR.rule
  rw [hR.start, hR.eof] at hrule
  -- items for the start rule are those with the dot before the end marker
  have hdot : ∀ d, (∃ g0, (rulesOf c)[d]? = some ⟨w.root, g0, some w.eof⟩) ↔ d = E.g.dotBeforeEof := by
    intro d
    constructor
    · rintro ⟨g1, h1⟩
      exact hR.ok.eofOnce _ _ h1 (by rw [hR.eof])
    · rintro rfl; exact ⟨_, hrule⟩
  simp only [Rec.finishedNode, hnm, Bool.and_false, Bool.false_eq_true, if_false, hit, pure_bind, hdot]
  refine ⟨items, items.head?.bind fun item => if item.dot = E.g.dotBeforeEof then some item.node else none, rfl, ?_⟩
  cases hrel with
  | nil => exact ⟨rfl, by simp, by simp⟩
  | @cons a b l m hab htl =>
    refine ⟨rfl, ?_, ?_⟩
    · simp only [List.head?_cons, Option.bind_some, List.mem_cons]
      by_cases hd : a.dot = E.g.dotBeforeEof
      · rw [if_pos hd]
        exact ⟨fun _ => ⟨a, .inl rfl, hd⟩, fun _ => rfl⟩
      · rw [if_neg hd]
        simp only [Option.isSome_none, Bool.false_eq_true, false_iff]
        rintro ⟨it, rfl | hit, hd'⟩
        · exact hd hd'
        · obtain ⟨it', hit', hii⟩ := forall₂_mem htl hit
          have hs := (List.pairwise_cons.1 (hrest.sorted _ hmem)).1 it' hit'
          obtain ⟨A, B, C, hb⟩ := hrest.binary _ hmem b (by simp)
          have hbe : rhs1Of (rulesOf c) it'.dot = some w.eof := by
            rw [← hii.1, hd', rhs1Of, hrule]; rfl
          have hbC : rhs1Of (rulesOf c) b.dot = some C := by rw [rhs1Of, hb]; rfl
          simp only [Key.le, itemKey, hbe, hbC, Option.getD_some, decide_eq_true_eq] at hs
          have hmin := hR.ok.eofMin _ (List.mem_of_getElem? hb) C rfl
          rw [hR.eof] at hmin
          have hCe : C = w.eof := by omega
          exact hd (hab.1.trans (hR.ok.eofOnce _ _ hb (by rw [hR.eof, hCe])))
    · intro x hx
      simp only [List.head?_cons, Option.bind_some] at hx
      split at hx
      · next hd => exact ⟨a, by simp, Option.some.inj hx, hd⟩
      · simp at hx

/-! ### C35 and C37 -/

/-- C35. On a set whose items wait for symbols `next it` in ascending order, the binary search and prefix scan of
`complete_medial_items` find exactly the items that wait for `sym`, in order. -/
theorem C35_lookup {l : List (Item ν)} {next : Item ν → Nat}
    (hnext : ∀ it ∈ l, E.g.getRhs1 it.dot = pure (some (next it))) (hs : l.Pairwise fun a b => next a ≤ next b)
    (sym : Nat) : Rec.medialMatches E l sym = pure (l.filter fun it => decide (next it = sym)) :=
  medialMatches_sorted hnext hs sym

/-- C37. `predict` on a row that is closed under the table gives the union of the row and the symbol's row. If the table
is transitive, the result is closed again. -/
theorem C37_predict_union {table : List (List Bool)} {wd : Nat} (hw : ∀ r ∈ table, r.length = wd) {row src : List Bool}
    {sym : Nat} (hrow : row.length = wd) (hsym : sym < wd) (hsrc : table[sym]? = some src)
    (hclosed : ∀ (X : Nat) (r : List Bool), row[X]? = some true → table[X]? = some r → ∀ Y : Nat, r[Y]? = some true → row[Y]? = some true) :
    ∃ row', predictRow row sym src = pure row' ∧ row'.length = wd ∧
      (∀ X : Nat, row'[X]? = some true ↔ row[X]? = some true ∨ src[X]? = some true) ∧
      ((∀ (X Y : Nat) (r r' : List Bool), table[X]? = some r → r[Y]? = some true → table[Y]? = some r' → ∀ Z : Nat, r'[Z]? = some true → r[Z]? = some true) →
        ∀ (X : Nat) (r : List Bool), row'[X]? = some true → table[X]? = some r → ∀ Y : Nat, r[Y]? = some true → row'[Y]? = some true) := by
  have hsl := hw src (List.mem_of_getElem? hsrc)
  have key : ∃ row', predictRow row sym src = pure row' ∧ row'.length = wd ∧
      ∀ X : Nat, row'[X]? = some true ↔ row[X]? = some true ∨ src[X]? = some true := by
    unfold predictRow
    rw [indexM_lt (by omega), pure_bind]
    cases hb : row[sym]'(by omega) with
    | false =>
      exact ⟨_, rfl, orRow_length hrow hsl, orRow_get hrow hsl⟩
    | true =>
      refine ⟨row, rfl, hrow, fun X => ⟨.inl, ?_⟩⟩
      rintro (h | h)
      · exact h
      · exact hclosed sym src (by rw [List.getElem?_eq_getElem (by omega), hb]) hsrc X h
  obtain ⟨row', h1, h2, h3⟩ := key
  refine ⟨row', h1, h2, h3, ?_⟩
  intro htr X r hX hr Y hY
  rw [h3] at hX ⊢
  rcases hX with hX | hX
  · exact .inl (hclosed X r hX hr Y hY)
  · exact .inr (htr sym X src r hsrc hX hr Y hY)

/-! ### Examples: the grammar `E ::= E plus E | a` of Examples/Sums.lean -/

section
open Gearley.Example

/-- The positions sof, a, plus, a. -/
def chartSteps : List Step := [(.keep, [(1, 0)]), (.keep, [(5, 10)]), (.keep, [(2, 11)]), (.clear, [(5, 12)])]

/-- What can be observed after a session. -/
def observe (steps : List Step) : M (Bool × List Nat × List (Nat × Nat) × Bool) := do
  let s ← Rec.new env ()
  let (s, ok) ← Rec.sessionWith env (Rec.completeAllFuel env 50) steps s
  let fin ← Rec.isFinished env s
  let s := s.beginEarleme
  let syms ← s.predictedSymbols
  let items ← s.medialItems
  pure (ok, syms, items.map (fun it => (it.dot, it.origin)), fin)

-- after sof a plus a: eof or plus may follow; the items are `root ::= g0 . eof` and `7 ::= E . plus` from two origins
example : observe chartSteps = pure (true, [0, 2], [(0, 0), (4, 1), (4, 2)], true) := by decide +kernel
-- after sof a plus: E, a
example : observe (chartSteps.take 3) = pure (true, [4, 5], [(1, 1)], false) := by decide +kernel

-- the hypotheses of C09 and C12 hold for these steps
example : TokensOK cfg.numSyms chartSteps ∧ (∀ st ∈ chartSteps, ∀ t ∈ st.2, t.1 ≠ wrap.root) ∧ NoHints chartSteps ∧
    chartSteps.length + 1 < 2 ^ 64 := by
  refine ⟨by unfold TokensOK; decide, by decide, ?_, by decide⟩
  intro st hst x hx
  simp only [chartSteps, List.mem_cons, List.not_mem_nil, or_false] at hst
  rcases hst with rfl | rfl | rfl | rfl <;> simp at hx

-- C10: plus is not predicted at the start
example : (do
    let s ← Rec.new env ()
    let s := s.beginEarleme
    let l ← s.predictedSymbols
    let s' ← Rec.scan env s 2 7
    pure (l, s' == s) : M _) = pure ([1, 3], true) := by decide +kernel

-- C15: the groups of the last position of sof a plus a, in the order of completion
example : UnaryOrdered (rulesOf cfg) := by unfold UnaryOrdered; decide

example : ∀ st ∈ chartSteps, (st.2.map (·.1)).Nodup ∧ Terminals cfg 6 (st.2.map (·.1)) := by
  unfold Terminals Terminal; decide

/-- The groups of the completion loop, computed. -/
def groupsFuel {σ ν : Type} (E : Env σ ν) : Nat → Rec σ ν → M (List (Nat × Nat))
  | 0, _ => diverge
  | k + 1, s => do
    match ← Rec.nextSum E s with
    | some (o, A) => do
      let s ← Rec.completeEntireSum E s o A
      let l ← groupsFuel E k s
      pure ((o, A) :: l)
    | none => pure []

example : (do
    let s ← Rec.new env ()
    let (s, _) ← Rec.sessionWith env (Rec.completeAllFuel env 50) (chartSteps.take 3) s
    let s ← Rec.scanAll env s.beginEarleme [(5, 12)]
    groupsFuel env 50 s : M _) = pure [(2, 4), (1, 4), (0, 6)] := by decide +kernel

-- C26: see `observe`; the accepting item is (0, 0)
example : (rulesOf cfg)[0]? = some ⟨wrap.root, 6, some wrap.eof⟩ := by decide

-- C35: looking up plus (2) in the set [(0,0), (4,1), (4,2)] waiting for [0, 2, 2]
example : Rec.medialMatches env [⟨0, 0, ()⟩, ⟨4, 1, ()⟩, ⟨4, 2, ()⟩] 2 = pure [⟨4, 1, ()⟩, ⟨4, 2, ()⟩] := by decide +kernel
example : ∀ it ∈ [(⟨0, 0, ()⟩ : Item Unit), ⟨4, 1, ()⟩, ⟨4, 2, ()⟩],
    env.g.getRhs1 it.dot = pure (some (if it.dot = 0 then 0 else 2)) := by decide +kernel

-- C37: a closed row, and a row that is not closed, for which `predict` is not a union
example : predictRow [false, true, false] 0 [true, true, false] = pure [true, true, false] := by decide
example : predictRow [true, false, false] 0 [true, true, false] = pure [true, false, false] := by decide

end

end Gearley.Props
