import Verif.Examples.Cyclic
import Verif.Proofs.AheadRun
import Verif.Props.Cycles
import Verif.Proofs.CostLower
import Verif.Props.Lookahead
import Verif.Props.Chart

/-! # C66: the chart with look-ahead, whatever the hints are

`Guided` (Spec/Ahead) says what Earley's algorithm finds when rules are entered and completed only where the tables allow the
announced token. Here: the recognizer's chart is exactly that, for all hints, right or wrong. -/

namespace Gearley.Props
open Gearley Gearley.Spec

variable {σ ν : Type} {E : Env σ ν} {c : Cfg} {n : Nat} {w : WrappedRoot} {f : σ}

/-- What the recognizer is asked to find. -/
def asked (E : Env σ ν) (c : Cfg) (n : Nat) (w : WrappedRoot) (steps : List Step) : Guided where
  rules := rulesOf c
  start := w.root
  syms := n
  first := E.g.firstHas
  follow := E.g.followHas
  inp := inputOf steps
  hint := hintsOf E.lookahead steps

theorem hintsOf_are (la : Bool) (steps : List Step) : HintsAre (hintsOf la steps) la 0 steps := by
  intro i st hst
  rw [Nat.zero_add, hintsOf, hst]
  rfl

theorem asked_run (hB : Prepared c n w E.g) (hleo : E.leo = false) (hF : SafeStart E.F f c.rules.length c.numSyms)
    {steps : List Step} (htok : TokensOK c.numSyms steps) (hin : HintsIn n steps) (hlen : steps.length < 2 ^ 64) {lax : Prop}
    (hterm : lax ∨ ∀ k, 0 < k → k ≤ steps.length → ¬ (asked E c n w steps).Loops k) :
    Gearley.Ends lax (Rec.new E f >>= Rec.session E steps) fun r =>
      (∀ k, 0 < k → k ≤ steps.length → ¬ (asked E c n w steps).Loops k) ∧
      (r.2 = true ↔ ∀ k, 0 < k → k ≤ steps.length → (asked E c n w steps).Lives k) ∧
      (r.2 = true → ∃ s S loc, AheadAt E.g (rulesOf c) (inputOf steps) (hintsOf E.lookahead steps) s steps.length S loc ∧
        r.1.predicted = s.predicted ∧ r.1.lookahead = none ∧
        VRel (fun (a : Item ν) (b : Item (List PTree)) => a.dot = b.dot ∧ a.origin = b.origin) r.1.medial s.medial) := by
  obtain ⟨root, g0, hR⟩ := hB.ready0
  have hG : asked E c n w steps = E.g.guided (rulesOf c) (inputOf steps) (hintsOf E.lookahead steps) := by
    rw [asked, DefaultGrammar.guided, hR.start, hR.syms]
  rw [hG] at hterm ⊢
  have hrun := ahead_run (la := E.lookahead) (sorter := E.sorter) (lax := lax) (W := inputOf steps)
    (hint := hintsOf E.lookahead steps) hR.ok hlen (stepsOK_of0 hR htok hin)
    (fun i st hst => by rw [Nat.zero_add]; exact inputOf_eq hst) (hintsOf_are _ _) hterm []
  obtain ⟨okDot, okLeaf, SF, w0, hI, hd, hl⟩ := hF
  have := sim_run' (la := E.lookahead) (so := E.sorter) SF.sim (hR.dots hd) (w := w0) hI
    (fun st hst p hp => hl p.1 p.2 (htok st hst p hp).1 (htok st hst p hp).2) hrun
  rw [env_eta hleo] at this
  refine this.mono ?_
  rintro r ⟨r0, w', ⟨h1, h2, h3⟩, h4, h5⟩
  refine ⟨h1, by rw [h5]; exact h2, fun ht => ?_⟩
  obtain ⟨hl, S, loc, ha⟩ := h3 (h5 ▸ ht)
  exact ⟨r0.1, S, loc, ha, h4.predicted, h4.lookahead.trans hl, h4.medial.mono fun a b hab => ⟨hab.1, hab.2.1⟩⟩

/-- C66, divergence. With any hints and any cycles in the grammar: the session diverges if and only if, at some position, an
expected symbol that is found derives itself with one-symbol rules that the hint of this position lets end. Otherwise it
returns. -/
theorem C66_diverges_iff (hB : Prepared c n w E.g) (hleo : E.leo = false) (hF : SafeStart E.F f c.rules.length c.numSyms)
    {steps : List Step} (htok : TokensOK c.numSyms steps) (hin : HintsIn n steps) (hlen : steps.length < 2 ^ 64) :
    ((Rec.new E f >>= Rec.session E steps) = diverge ↔ ∃ k, k ≤ steps.length ∧ (asked E c n w steps).Loops k) ∧
    ((Rec.new E f >>= Rec.session E steps) ≠ diverge → ∃ r, (Rec.new E f >>= Rec.session E steps) = pure r) := by
  have hpos : ∀ {k}, (asked E c n w steps).Loops k → 0 < k := by
    rintro k ⟨a, A, t, _, hf, _⟩
    have := hf.tree.lt
    omega
  refine ⟨⟨fun hd => ?_, ?_⟩, ?_⟩
  · by_contra hno
    obtain ⟨r, hr, _⟩ := (asked_run hB hleo hF htok hin hlen (lax := False)
      (.inr fun k _ hk hl => hno ⟨k, hk, hl⟩)).returns
    rw [hd] at hr
    exact diverge_ne_pure hr
  · rintro ⟨k, hk, hl⟩
    rcases asked_run hB hleo hF htok hin hlen (lax := True) (.inl trivial) with ⟨r, _, h, _⟩ | ⟨_, h⟩
    · exact absurd hl (h k (hpos hl) hk)
    · exact h
  · intro hnd
    rcases asked_run hB hleo hF htok hin hlen (lax := True) (.inl trivial) with ⟨r, hr, _⟩ | ⟨_, h⟩
    · exact ⟨r, hr⟩
    · exact absurd h hnd

/-- C66, failure. A session that returns got through all its positions if and only if some rule is entered or completed at
the last of them. -/
theorem C66_through_iff (hB : Prepared c n w E.g) (hleo : E.leo = false) (hF : SafeStart E.F f c.rules.length c.numSyms)
    {steps : List Step} (htok : TokensOK c.numSyms steps) (hin : HintsIn n steps) (hlen : steps.length < 2 ^ 64)
    (hne : steps ≠ []) {r : Rec σ ν × Bool} (hr : (Rec.new E f >>= Rec.session E steps) = pure r) :
    r.2 = true ↔ (asked E c n w steps).Lives steps.length := by
  have hl0 : 0 < steps.length := List.length_pos_iff.2 hne
  rcases asked_run hB hleo hF htok hin hlen (lax := True) (.inl trivial) with ⟨r', hr', _, h, _⟩ | ⟨_, h⟩
  · rw [hr] at hr'
    have := pure_inj_M hr'
    subst this
    exact h.trans ⟨fun h => h _ hl0 (Nat.le_refl _), fun h k h1 h2 => h.before h1 h2⟩
  · rw [hr] at h
    exact absurd h.symm diverge_ne_pure

/-- C66, the chart. After a session that got through, with any hints: the sets that are left correspond to strictly increasing
input positions `loc`, from the first position to the current one. The items of each of these sets are exactly those that
`Guided` has at its position, and the prediction row of each of these sets has exactly the expected symbols. -/
theorem C66_chart (hB : Prepared c n w E.g) (hleo : E.leo = false) (hF : SafeStart E.F f c.rules.length c.numSyms)
    {steps : List Step} (htok : TokensOK c.numSyms steps) (hin : HintsIn n steps) (hlen : steps.length < 2 ^ 64)
    {s : Rec σ ν} (hr : (Rec.new E f >>= Rec.session E steps) = pure (s, true)) :
    ∃ loc : List Nat, loc.length = s.medial.len ∧ loc.Pairwise (· < ·) ∧ loc[0]? = some 0 ∧
      loc.getLast? = some steps.length ∧ s.lookahead = none ∧
      (∀ (k b : Nat), loc[k]? = some b → ∃ items, s.beginEarleme.medial.index k = pure items ∧
        (∀ it ∈ items, it.origin < k) ∧
        ∀ d a, (∃ it ∈ items, it.dot = d ∧ loc[it.origin]? = some a) ↔ ∃ t, (asked E c n w steps).Item b d a t) ∧
      ∀ (k b : Nat), loc[k]? = some b → ∀ X, s.predicted.bit k X = true ↔ X < n ∧ (asked E c n w steps).Pred b X := by
  obtain ⟨root, g0, hR⟩ := hB.ready0
  have hG : asked E c n w steps = E.g.guided (rulesOf c) (inputOf steps) (hintsOf E.lookahead steps) := by
    rw [asked, DefaultGrammar.guided, hR.start, hR.syms]
  rcases asked_run hB hleo hF htok hin hlen (lax := True) (.inl trivial) with ⟨r', hr', _, _, h⟩ | ⟨_, h⟩
  swap
  · rw [hr] at h
    exact absurd h.symm diverge_ne_pure
  rw [hr] at hr'
  have := pure_inj_M hr'
  subst this
  obtain ⟨s0, S, loc, ha, hpred, hlook, hmed⟩ := h rfl
  have hml : s.medial.len = S.length := by rw [hmed.len, ha.rest.medial, Vec2d.len_eq]
  refine ⟨loc, by rw [hml]; exact ha.sound.locLen, ha.sound.mono, ha.sound.loc0, ?_, hlook, ?_, ?_⟩
  · rw [List.getLast?_eq_getElem?, ha.sound.locLen]; exact ha.sound.last
  · intro k b hb
    have hk : k < S.length := by rw [← ha.sound.locLen]; exact (List.getElem?_eq_some_iff.1 hb).1
    have hSk : S[k]? = some S[k] := List.getElem?_eq_getElem hk
    have htree : s0.medial.nextSet.index k = pure S[k] := by
      rw [ha.rest.medial, Vec2d.nextSet_eq]
      refine Vec2d.index_eq _ _ _ (by simp; omega) ?_
      rw [List.getElem?_append_left hk]; exact hSk
    obtain ⟨items, h9, h10⟩ := (hmed.nextSet.index (lax := False) k).returns htree
    refine ⟨items, h9, ?_, ?_⟩
    · intro it hit
      obtain ⟨it', hit', h11⟩ := forall₂_mem h10 hit
      rw [h11.2]; exact ha.rest.origin k _ hSk it' hit'
    · intro d a
      rw [hG]
      constructor
      · rintro ⟨it, hit, rfl, hal⟩
        obtain ⟨it', hit', h11⟩ := forall₂_mem h10 hit
        obtain ⟨t, ts, ht⟩ := List.exists_cons_of_ne_nil (ha.rest.node _ (List.getElem_mem hk) it' hit')
        refine ⟨t, (ha.items k _ b hSk hb it.dot a t).1 ⟨it.origin, hal, mem_facts.2 ⟨it', hit', h11.1, h11.2, ?_⟩⟩⟩
        rw [ht]; simp
      · rintro ⟨t, hi⟩
        obtain ⟨o, ho, hx⟩ := (ha.items k _ b hSk hb d a t).2 hi
        obtain ⟨it', hit', e1, e2, _⟩ := mem_facts.1 hx
        obtain ⟨it, hit, h11⟩ := forall₂_mem' h10 hit'
        simp only at e1 e2
        exact ⟨it, hit, by rw [h11.1]; exact e1.symm, by rw [h11.2, ← e2]; exact ho⟩
  · intro k b hb X
    rw [hpred, hG, ha.rows k b hb X, hR.syms]

/-- C66, a lower bound on the work. With any hints: reading one more position takes at least two operations for each symbol
and starting position such that a rule of the symbol is completed over these positions. -/
theorem C66_lower (hB : Prepared c n w E.g) (hleo : E.leo = false) (hF : SafeStart E.F f c.rules.length c.numSyms)
    {pre : List Step} {st : Step} (htok : TokensOK c.numSyms (pre ++ [st])) (hin : HintsIn n (pre ++ [st]))
    (hlen : pre.length + 1 < 2 ^ 64) {s1 : Rec (σ × Nat) ν} {r : Rec (σ × Nat) ν × Bool}
    (hr1 : (Rec.new E.counting (f, 0) >>= Rec.session E.counting pre) = pure (s1, true))
    (hr : (Rec.new E.counting (f, 0) >>= Rec.session E.counting (pre ++ [st])) = pure r) {K : Finset (Nat × Nat)}
    (hK : ∀ p ∈ K, ∃ d t, (asked E c n w (pre ++ [st])).Found (pre.length + 1) p.1 p.2 (.node d t)) :
    s1.forest.2 + 2 * K.card ≤ r.1.forest.2 := by
  obtain ⟨root, g0, hR⟩ := hB.ready0
  obtain ⟨okDot, okLeaf, SF, w0, hI, hd, hl⟩ := counting_safe hF 0
  have hd' := hR.dots hd
  have henv : FSim.env E.g E.lookahead false E.sorter E.counting.F = E.counting := by
    simp only [FSim.env, Env.counting, hleo]
  have hG : asked E c n w (pre ++ [st]) =
      E.g.guided (rulesOf c) (inputOf (pre ++ [st])) (hintsOf E.lookahead (pre ++ [st])) := by
    rw [asked, DefaultGrammar.guided, hR.start, hR.syms]
  rw [hG] at hK
  have hok := stepsOK_of0 hR htok hin
  have hWin : StepsIn (inputOf (pre ++ [st])) 0 (pre ++ [st]) := fun i x hx => by rw [Nat.zero_add]; exact inputOf_eq hx
  have hhi := hintsOf_are E.lookahead (pre ++ [st])
  have hWe : inputOf (pre ++ [st]) pre.length = st.2 := inputOf_eq (by simp)
  have hhe : hintsOf E.lookahead (pre ++ [st]) (pre.length + 1) = if E.lookahead then hintOf st.1 else none := by
    simp [hintsOf]
  generalize inputOf (pre ++ [st]) = W at hK hWin hWe
  generalize hintsOf E.lookahead (pre ++ [st]) = hint at hK hhi hhe
  have hget : ∀ {i : Nat} {x : Step}, pre[i]? = some x → (pre ++ [st])[i]? = some x := fun hx => by
    rw [List.getElem?_append_left (List.getElem?_eq_some_iff.1 hx).1]; exact hx
  have hrun := ahead_run (la := E.lookahead) (sorter := E.sorter) (lax := True) (W := W) (hint := hint) hR.ok
    (steps := pre) (by omega) (fun x hx => hok x (List.mem_append_left _ hx)) (fun i x hx => hWin i x (hget hx))
    (fun i x hx => hhi i x (hget hx)) (.inl trivial) []
  have := sim_run' (la := E.lookahead) (so := E.sorter) SF.sim hd' (w := w0) hI
    (fun x hx p hp => hl p.1 p.2 (htok x (List.mem_append_left _ hx) p hp).1 (htok x (List.mem_append_left _ hx) p hp).2) hrun
  rw [show FSim.env E.g E.lookahead false E.sorter (counting E.F) = E.counting from henv] at this
  obtain ⟨t, w', S, loc, hinv, hla, h4⟩ : ∃ t w' S loc, AheadAt E.g (rulesOf c) W hint t pre.length S loc ∧
      t.lookahead = none ∧ SF.sim.RIdle w' s1 t := by
    rcases this with ⟨r', hr', r0, w', ⟨_, _, hq⟩, hrel, hr0⟩ | ⟨_, h⟩
    · rw [hr1] at hr'
      have := pure_inj_M hr'
      subst this
      obtain ⟨hla, S, loc, ha⟩ := hq hr0.symm
      exact ⟨r0.1, w', S, loc, ha, hla, hrel⟩
    · rw [hr1] at h
      exact absurd h.symm diverge_ne_pure
  obtain ⟨s0, h0, hr⟩ := bind_eq_pure hr
  rw [h0, pure_bind] at hr1
  obtain ⟨op, toks⟩ := st
  rw [Rec.session_snoc, hr1, pure_bind] at hr
  simp only [if_true] at hr
  simp only at hWe hhe
  have hpos := hinv.rest.pos
  have hSl := hinv.sound.length_le hpos
  have hstop : ∀ x, op = .set x → x < E.g.syms := fun x hx => by rw [hR.syms]; exact hin (op, toks) (by simp) x hx
  have hh : hint (pre.length + 1) = if E.lookahead then (Rec.applyHint t op).lookahead else none := by
    rw [hhe]
    cases op with
    | keep => show _ = if E.lookahead then t.lookahead else none; rw [hla]; rfl
    | set x => rfl
    | clear => rfl
  have htoks : ∀ p ∈ toks, p.1 < c.numSyms := fun p hp => (htok (op, toks) (by simp) p hp).1
  have hinv' := hinv.hintOp op hstop
  have h1' := hinv'.rest
  have h4' : (laxSim E.counting.F treeForest).RIdle () (Rec.applyHint s1 op) (Rec.applyHint t op) :=
    FSim.applyHint_rel (ridle_lax h4) op
  have hf1 : (Rec.applyHint s1 op).beginEarleme.forest.2 = s1.forest.2 := by
    cases op <;> rfl
  unfold Rec.position Rec.positionWith at hr
  obtain ⟨s2, h5, hr⟩ := bind_eq_pure hr
  have hsc := Rec.scanAll_ops hleo h5
  rw [hf1] at hsc
  have hc := h1'.ok hR.ok (la := E.lookahead) (sorter := E.sorter)
  obtain ⟨t1, ht1, cur, hmid, -⟩ := scanAll_spec hc h1'.pos (by show S.length < _; omega)
    (EC.keeps_true (ctxOf E.g (rulesOf c) root E.lookahead E.sorter (Rec.applyHint t op) S) toks) [] toks rfl
    (by show ∀ x ∈ toks, x.1 < E.g.syms + E.g.gensyms; rw [hR.all]; exact htoks)
    h1'.mid_begin trivial
  rw [Multiset.zero_add] at hmid
  have hdT : DotsOK E.g fun _ => True :=
    ⟨fun _ _ _ _ _ => trivial, fun _ _ _ _ _ => trivial, fun _ _ _ _ _ => trivial⟩
  have h5' : Rec.scanAll (FSim.env E.g E.lookahead false E.sorter E.counting.F)
      (Rec.applyHint s1 op).beginEarleme toks = pure s2 := by rw [henv]; exact h5
  obtain ⟨_, _, hrel2⟩ := (FSim.scanAll_rel (S := laxSim E.counting.F treeForest) (g := E.g)
    (la := E.lookahead) (leo := false) (so := E.sorter) hdT (FSim.begin_rel h4') (toks := toks)
    (fun _ _ => trivial)).both h5' ht1
  have hmany : ∀ {l : List (Nat × Nat)} {t3 : TRec},
      Rec.Groups (ctxOf E.g (rulesOf c) root E.lookahead E.sorter (Rec.applyHint t op) S).E t1 l t3 → K.card ≤ l.length := by
    intro l t3 hgr
    obtain ⟨Fd, cur', hfix, hall⟩ := EC.groups_all hc hgr hmid
    have hmem : ∀ p ∈ K, ∃ o, loc[o]? = some p.2 ∧ (o, p.1) ∈ l := by
      intro p hp
      obtain ⟨d, u, hfo⟩ := hK p hp
      rw [← hWe] at hfix
      obtain ⟨o, ho, hz⟩ := hinv'.fd_complete hR.ok hh hfix hfo rfl
      refine ⟨o, ho, (hall _ hz).resolve_left fun h => ?_⟩
      obtain ⟨y, _, he⟩ := Multiset.mem_map.1 h
      simp at he
    choose! o ho hol using hmem
    have hinj : Set.InjOn (fun p => (o p, p.1)) (K : Set (Nat × Nat)) := by
      intro p hp q hq he
      simp only [Prod.mk.injEq] at he
      have h1 := ho p hp
      rw [he.1, ho q hq, Option.some.injEq] at h1
      exact Prod.ext he.2 h1.symm
    have := Finset.card_le_card_of_injOn (s := K) (t := l.toFinset) (fun p => (o p, p.1))
      (fun p hp => by simpa using hol p hp) hinj
    exact this.trans (List.toFinset_card_le l)
  unfold Rec.endEarlemeWith at hr
  obtain ⟨b, hb, hr⟩ := bind_eq_pure hr
  cases b with
  | true =>
    simp only [if_true] at hr
    rw [← pure_inj_M hr]
    have hemp : t1.complete = [] := by
      unfold Rec.isExhausted at hb
      obtain ⟨last, _, hb⟩ := bind_eq_pure hb
      have hb := pure_inj_M hb
      simp only [Bool.and_eq_true, List.isEmpty_iff] at hb
      have := hrel2.complete.length_eq
      rw [hb.2] at this
      exact List.eq_nil_of_length_eq_zero this.symm
    have := hmany (l := []) (t3 := t1) (.done (by unfold Rec.nextSum; rw [hemp]; rfl))
    simp only [List.length_nil, Nat.le_zero] at this
    rw [this]
    show s1.forest.2 + 0 ≤ s2.forest.2
    omega
  | false =>
    simp only [Bool.false_eq_true, if_false] at hr
    obtain ⟨s3, h6, hr⟩ := bind_eq_pure hr
    obtain ⟨s4, h7, hr⟩ := bind_eq_pure hr
    rw [← pure_inj_M hr]
    obtain ⟨l, s5, h8, rfl⟩ := groups_of_completeAll h6
    have hgo := Rec.groups_ops hleo h8
    rw [← henv] at h8
    obtain ⟨t3, hgt⟩ := groups_lax h8
      (c := ctxOf E.g (rulesOf c) root E.lookahead E.sorter (Rec.applyHint t op) S) rfl rfl rfl hc hmid hrel2
    have hcard := hmany hgt
    have e1 := (Rec.advance_keeps h7).1
    show s1.forest.2 + _ ≤ s4.forest.2
    rw [e1]
    show s1.forest.2 + _ ≤ s5.forest.2
    omega

/-! ### Hints only leave things out -/

/-- The same without hints. -/
def _root_.Gearley.Spec.Guided.unhinted (G : Guided) : Guided := { G with hint := fun _ => none }

theorem unhinted_found {G : Guided} {b A a : Nat} {t : PTree} (h : G.Found b A a t) : G.unhinted.Found b A a t := by
  induction h using Guided.Found.rec (motive_1 := fun a A _ => G.unhinted.Pred a A) with
  | start => exact .start
  | corner _ hc ih => exact .corner ih hc
  | next hR _ _ _ ih1 ih2 => exact .next hR ih1 ih2 (.inr fun h hh => by cases hh)
  | token h => exact .token h
  | unary hR _ _ _ ih1 ih2 => exact .unary hR ih1 ih2 (.inr (.inr fun h hh => by cases hh))
  | binary hR _ _ _ _ _ ih1 ih2 ih3 =>
    exact .binary hR ih1 ih2 (.inr fun h hh => by cases hh) ih3 (.inr fun h hh => by cases hh)

theorem unhinted_pred {G : Guided} {a A : Nat} (h : G.Pred a A) : G.unhinted.Pred a A := by
  induction h using Guided.Pred.rec (motive_2 := fun _ _ _ _ _ => True) with
  | start => exact .start
  | corner _ hc ih => exact .corner ih hc
  | next hR _ hf _ ih1 => exact .next hR ih1 (unhinted_found hf) (.inr fun h hh => by cases hh)
  | token => trivial
  | unary => trivial
  | binary => trivial

theorem unhinted_item {G : Guided} {b d a : Nat} {t : PTree} (h : G.Item b d a t) : G.unhinted.Item b d a t := by
  obtain ⟨A, B, C, hR, hp, hf, _⟩ := h
  exact ⟨A, B, C, hR, unhinted_pred hp, unhinted_found hf, .inr fun h hh => by cases hh⟩

theorem unhinted_lives {G : Guided} {b : Nat} (h : G.Lives b) : G.unhinted.Lives b := by
  rcases h with ⟨d, a, t, h⟩ | ⟨A, a, d, t, h⟩
  · exact .inl ⟨d, a, t, unhinted_item h⟩
  · exact .inr ⟨A, a, d, t, unhinted_found h⟩

theorem unhinted_loops {G : Guided} {b : Nat} (h : G.Loops b) : G.unhinted.Loops b := by
  obtain ⟨a, A, t, hp, hf, hc⟩ := h
  refine ⟨a, A, t, unhinted_pred hp, unhinted_found hf, Relation.TransGen.mono ?_ _ _ hc⟩
  rintro A B ⟨d, hR, _⟩
  exact ⟨d, hR, .inr (.inr fun h hh => by cases hh)⟩

/-- The session without its hints. -/
def unhint (steps : List Step) : List Step := steps.map fun st => (.keep, st.2)

theorem asked_unhint (E : Env σ ν) (c : Cfg) (n : Nat) (w : WrappedRoot) (steps : List Step) :
    asked E c n w (unhint steps) = (asked E c n w steps).unhinted := by
  have h1 : inputOf (unhint steps) = inputOf steps := by
    funext i
    simp only [inputOf, unhint, List.getElem?_map]
    cases steps[i]? <;> rfl
  have h2 : hintsOf E.lookahead (unhint steps) = fun _ => none := by
    funext k
    cases k with
    | zero => rfl
    | succ k =>
      simp only [hintsOf, unhint, List.getElem?_map]
      cases steps[k]? <;> cases E.lookahead <;> rfl
  simp only [asked, Guided.unhinted, h1, h2]

/-- C66, wrong hints. Whatever the hints of a session say: if the session does not return, neither does the session without
hints; and if the session without hints returns with a failure, so does the session. -/
theorem C66_hints_prune (hB : Prepared c n w E.g) (hleo : E.leo = false) (hF : SafeStart E.F f c.rules.length c.numSyms)
    {steps : List Step} (htok : TokensOK c.numSyms steps) (hin : HintsIn n steps) (hlen : steps.length < 2 ^ 64)
    {r0 : Rec σ ν × Bool} (hr0 : (Rec.new E f >>= Rec.session E (unhint steps)) = pure r0) :
    ∃ r, (Rec.new E f >>= Rec.session E steps) = pure r ∧ (r.2 = true → r0.2 = true) := by
  have hl : (unhint steps).length = steps.length := by simp [unhint]
  have htok' : TokensOK c.numSyms (unhint steps) := by
    intro st hst
    obtain ⟨x, hx, rfl⟩ := List.mem_map.1 hst
    exact htok x hx
  have hin' : HintsIn n (unhint steps) := by
    intro st hst x hx
    obtain ⟨y, _, rfl⟩ := List.mem_map.1 hst
    cases hx
  have hG := asked_unhint E c n w steps
  have hnd : (Rec.new E f >>= Rec.session E steps) ≠ diverge := by
    intro hd
    obtain ⟨k, hk, hlo⟩ := (C66_diverges_iff hB hleo hF htok hin hlen).1.1 hd
    have := (C66_diverges_iff hB hleo hF htok' hin' (by omega)).1.2 ⟨k, by omega, hG ▸ unhinted_loops hlo⟩
    rw [hr0] at this
    exact diverge_ne_pure this.symm
  obtain ⟨r, hr⟩ := (C66_diverges_iff hB hleo hF htok hin hlen).2 hnd
  refine ⟨r, hr, fun ht => ?_⟩
  by_cases hne : steps = []
  · subst hne
    have : r0 = r := pure_inj_M (hr0.symm.trans hr)
    rw [this]; exact ht
  · have h1 := (C66_through_iff hB hleo hF htok hin hlen hne hr).1 ht
    refine (C66_through_iff hB hleo hF htok' hin' (by omega) (by simpa [unhint] using hne) hr0).2 ?_
    rw [hG, hl]
    exact unhinted_lives h1

/-! ### The grammar `S ::= S | a`: a hint decides about divergence -/

section
open Gearley.Example.Cyclic

/-- The input `a`, with a hint about what comes after it. -/
def hintedA (h : Nat) : List Step := [(.keep, [(1, 0)]), (.set h, [(2, 0)])]

theorem hintedA_hints {h : Nat} (hh : h < 5) : HintsIn 5 (hintedA h) := by
  intro st hst x hx
  rcases List.mem_cons.1 hst with rfl | hst
  · cases hx
  · obtain rfl := List.mem_singleton.1 hst
    cases hx
    exact hh

theorem hintedA_pred (h : Nat) : (asked env cfg 5 wrap (hintedA h)).Pred 1 4 := by
  have hr : (asked env cfg 5 wrap (hintedA h)).rules = rulesOf cfg := rfl
  have h0 : (asked env cfg 5 wrap (hintedA h)).Pred 0 5 := .corner .start ⟨⟨3, 5, some 0⟩, by rw [hr]; decide, rfl, rfl⟩
  exact .next (d := 3) (A := 5) (B := 1) (t := .leaf 1 0) (by rw [hr]; decide) h0 (.token (List.mem_singleton.2 rfl))
    (.inr fun h hh => by cases hh)

theorem hintedA_hint (h : Nat) : (asked env cfg 5 wrap (hintedA h)).hint 2 = some h := rfl

/-- Told that the end comes after `a`, the recognizer does not return. -/
example : (Rec.new env () >>= Rec.session env (hintedA 0)) = diverge := by
  have he : (asked env cfg 5 wrap (hintedA 0)).Ends 2 4 := by
    refine .inr fun h hh => ?_
    rw [hintedA_hint] at hh
    cases hh
    show grammar.followHas 4 0
    unfold DefaultGrammar.followHas
    decide +kernel
  exact (C66_diverges_iff prepared rfl safe (by unfold TokensOK; decide) (hintedA_hints (by decide)) (by decide)).1.2
    ⟨2, by decide, 1, 4, .node 2 (.leaf 2 0), hintedA_pred 0,
      .unary (B := 2) (by decide) (hintedA_pred 0) (.token (by decide)) (.inr he), .single ⟨1, by decide, .inr he⟩⟩

theorem hintedA_rules {d : Nat} {A B : Nat} (h : (rulesOf cfg)[d]? = some ⟨A, B, none⟩) : A = 4 ∧ (B = 4 ∨ B = 2) := by
  have hm := List.mem_of_getElem? h
  have : ∀ r ∈ rulesOf cfg, r.rhs1 = none → r.lhs = 4 ∧ (r.rhs0 = 4 ∨ r.rhs0 = 2) := by decide
  exact this _ hm rfl

theorem hintedA_found {h b A a : Nat} {t : PTree} (hf : (asked env cfg 5 wrap (hintedA h)).Found b A a t) :
    A = 4 ∨ A = 2 → b = 2 := by
  induction hf using Guided.Found.rec (motive_1 := fun _ _ _ => True) with
  | start => trivial
  | corner => trivial
  | next => trivial
  | @token A v e hm =>
    intro hA
    have hm' : (A, v) ∈ inputOf (hintedA h) e := hm
    match e, hm' with
    | 0, hm' => obtain ⟨rfl, rfl⟩ := Prod.mk.inj (List.mem_singleton.1 hm'); omega
    | 1, _ => rfl
    | e + 2, hm' => exact absurd hm' List.not_mem_nil
  | unary hR _ _ _ _ ih => exact fun _ => ih (hintedA_rules hR).2
  | binary hR =>
    rename_i A B C _ _ _ _ _ _ _ _ _ _ _ _ _
    intro hA
    have : ∀ r ∈ rulesOf cfg, r.rhs1 ≠ none → ¬ (r.lhs = 4 ∨ r.lhs = 2) := by decide
    exact absurd hA (this _ (List.mem_of_getElem? hR) (by simp))

/-- Told that another `a` comes after `a`, it returns. -/
example : ∃ r, (Rec.new env () >>= Rec.session env (hintedA 2)) = pure r := by
  have hno : ¬ (asked env cfg 5 wrap (hintedA 2)).Ends 2 4 := by
    rintro (h | h)
    · exact absurd h (by decide)
    · have : grammar.followHas 4 2 := h 2 (hintedA_hint 2)
      unfold DefaultGrammar.followHas at this
      revert this
      decide +kernel
  have hI := C66_diverges_iff prepared rfl safe (by unfold TokensOK; decide) (hintedA_hints (h := 2) (by decide)) (by decide)
  refine hI.2 fun hd => ?_
  obtain ⟨k, hk, a, A, t, hp, hf, hc⟩ := hI.1.1 hd
  obtain ⟨B, ⟨d, hR, he⟩, _⟩ := Relation.TransGen.head'_iff.1 hc
  obtain ⟨rfl, hB⟩ := hintedA_rules hR
  obtain rfl := hintedA_found hf (.inl rfl)
  rcases he with he | he
  · have : (5 : Nat) ≤ B := he
    omega
  · exact hno he

end
end Gearley.Props
