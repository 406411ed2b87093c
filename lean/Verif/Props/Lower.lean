import Verif.Proofs.CostLower
import Verif.Props.Cost
import Verif.Props.Recognition
import Verif.Examples.Right

/-!
# C49: a lower bound on the work, and right recursion

Every symbol that is finished at a position, starting anywhere, costs at least two operations. `complete_leo` is `todo!`
(recognizer.rs), so this includes all the suffixes of a right-recursive list.
-/

namespace Gearley.Props
open Gearley.Spec
variable {σ ν : Type} {c : Cfg} {n : Nat} {w : WrappedRoot} {E : Env σ ν} {f : σ}

/-- `A` has a rule applied over the positions `a..b` in some derivation of the whole input of `steps` from the start symbol. -/
def Used (R : Rules) (start : Nat) (steps : List Step) (b : Nat) (p : Nat × Nat) : Prop :=
  (∃ d t, TreeOf R (inputOf steps) (.node d t) p.1 p.2 b) ∧ Ctx R start (inputOf steps) steps.length p.1 p.2 b

/-- C49. Without hints: reading the next position takes at least two operations for each symbol and starting position such that
the symbol ends at this position in a derivation of some continuation. -/
theorem C49_lower (hB : Built c n w E.g) (hleo : E.leo = false)
    (hF : SafeStart E.F f c.rules.length c.numSyms) {pre more : List Step} {st : Step}
    (htok : TokensOK c.numSyms (pre ++ [st])) (hno : NoHints (pre ++ [st])) (hlen : pre.length + 1 < 2 ^ 64)
    {K : Finset (Nat × Nat)}
    (hK : ∀ p ∈ K, Used (rulesOf c) w.root (pre ++ st :: more) (pre.length + 1) p) :
    ∃ r r', (Rec.new E.counting (f, 0) >>= Rec.session E.counting pre) = pure r ∧
      (Rec.new E.counting (f, 0) >>= Rec.session E.counting (pre ++ [st])) = pure r' ∧
      (r.2 = true → r.1.forest.2 + 2 * K.card ≤ r'.1.forest.2) := by
  obtain ⟨root, rank, g0, hR⟩ := hB.ready
  obtain ⟨okDot, okLeaf, SF, w0, hI, hd, hl⟩ := counting_safe hF 0
  have hd' := hR.dots hd
  have henv : FSim.env E.g E.lookahead false E.sorter E.counting.F = E.counting := by
    simp only [FSim.env, Env.counting, hleo]
  unfold Used at hK
  rw [← hR.start] at hK
  have hWin : StepsIn (inputOf (pre ++ st :: more)) 0 (pre ++ [st]) := by
    intro i x hx
    rw [Nat.zero_add]
    refine inputOf_eq ?_
    obtain ⟨hi, hx⟩ := List.getElem?_eq_some_iff.1 hx
    rw [show pre ++ st :: more = (pre ++ [st]) ++ more by simp, List.getElem?_append_left hi, List.getElem?_eq_getElem hi, hx]
  generalize inputOf (pre ++ st :: more) = W at hK hWin
  generalize (pre ++ st :: more).length = N at hK
  have hT : LookaheadOK E.g (rulesOf c) (fun _ => False) := ⟨fun _ _ _ _ h => h.elim, fun _ _ _ _ _ h => h.elim⟩
  have hP := pred_predOK (R := rulesOf c) E.g.startSym W
  have hinp : ∀ {steps : List Step}, TokensOK c.numSyms steps → NoHints steps → StepsOK E.g steps := fun htok hno =>
    stepsOK_of hR htok fun st hst x hx => absurd hx (hno st hst x)
  -- the state after a part of the session
  have key : ∀ steps : List Step, TokensOK c.numSyms steps → NoHints steps → steps.length + 1 < 2 ^ 64 + 1 →
      StepsIn W 0 steps →
      ∃ r, (Rec.new E.counting (f, 0) >>= Rec.session E.counting steps) = pure r ∧ (r.2 = true →
        ∃ t S loc, InvAt E.g (rulesOf c) W N True (Pred (rulesOf c) E.g.startSym W) (fun _ => False) t steps.length S loc ∧
          t.lookahead = none ∧ ∃ w, SF.sim.RIdle w r.1 t) := by
    intro steps htok hno hlen hWin
    have hrun : Returns (Rec.new (treeEnv E.g E.lookahead E.sorter) [] >>= Rec.session (treeEnv E.g E.lookahead E.sorter) steps)
        fun r => r.2 = true → ∃ S loc, InvAt E.g (rulesOf c) W N True (Pred (rulesOf c) E.g.startSym W) (fun _ => False)
          r.1 steps.length S loc ∧ r.1.lookahead = none := by
      refine returns_bind ((new_spec (n := N) (H := True) hR.ok hP []).mono ?_)
      rintro s ⟨hs, hl⟩
      refine (session_inv hR.ok hT hR.ranked hP steps s 0 _ _ hs (by omega) (hinp htok hno) hWin
        fun _ _ => by rw [hl]; exact hno.hintsOK).mono ?_
      rintro ⟨s', ok⟩ hr hok1
      simp only [Nat.zero_add] at hr hok1
      rcases hr with ⟨_, h2⟩ | ⟨h1, _⟩
      · rcases h2 with ⟨rfl, rfl⟩ | ⟨_, S', loc', h3, _, h5, _⟩
        · exact ⟨_, _, hs, hl⟩
        · exact ⟨_, _, h3, h5⟩
      · rw [hok1] at h1; simp at h1
    have := sim_run (la := E.lookahead) (so := E.sorter) SF.sim hd' (f0 := []) (w := w0) hI
      (fun st hst p hp => hl p.1 p.2 (htok st hst p hp).1 (htok st hst p hp).2) hrun
    rw [show FSim.env E.g E.lookahead false E.sorter (counting E.F) = E.counting from henv] at this
    obtain ⟨r, h, r0, w', hq, hrel, hr0⟩ := this
    refine ⟨r, h, fun ht => ?_⟩
    obtain ⟨S, loc, hinv, hla⟩ := hq (hr0 ▸ ht)
    exact ⟨r0.1, S, loc, hinv, hla, w', hrel⟩
  have hsub : ∀ x ∈ pre, x ∈ pre ++ [st] := fun x h => List.mem_append_left _ h
  have hp4 : StepsIn W 0 pre := fun i x hx => hWin i x (by
    rw [List.getElem?_append_left (List.getElem?_eq_some_iff.1 hx).1]; exact hx)
  obtain ⟨r1, hr1, hrest1⟩ := key pre (fun x h => htok x (hsub x h)) (fun x h => hno x (hsub x h)) (by omega) hp4
  obtain ⟨r, hr, -⟩ := key (pre ++ [st]) htok hno (by simp; omega) hWin
  refine ⟨r1, r, hr1, hr, fun hok => ?_⟩
  obtain ⟨s0, h0, hr⟩ := bind_eq_pure hr
  rw [h0, pure_bind] at hr1
  obtain ⟨op, toks⟩ := st
  rw [Rec.session_snoc, hr1, pure_bind] at hr
  obtain ⟨s1, ok⟩ := r1
  obtain rfl : ok = true := hok
  simp only [if_true] at hr
  obtain ⟨t, S, loc, hinv, hla, w', h4⟩ := hrest1 rfl
  have hpos := hinv.rest.pos
  have hSl := hinv.sound.length_le hpos
  have hWe : W pre.length = toks := by
    have := hWin pre.length (op, toks) (by simp)
    rwa [Nat.zero_add] at this
  have hstop : ∀ x, op = .set x → x < E.g.syms := fun x hx => absurd hx (hno (op, toks) (by simp) x)
  have hla' : (Rec.applyHint t op).lookahead = none := by
    cases op with
    | keep => exact hla
    | set x => exact absurd rfl (hno (.set x, toks) (by simp) x)
    | clear => rfl
  have htoks : ∀ p ∈ toks, p.1 < c.numSyms := fun p hp => (htok (op, toks) (by simp) p hp).1
  have hinv' := hinv.hint op hstop
  have h1' := hinv'.rest
  have h4' : (laxSim E.counting.F treeForest).RIdle () (Rec.applyHint s1 op) (Rec.applyHint t op) :=
    FSim.applyHint_rel (ridle_lax h4) op
  have hf1 : (Rec.applyHint s1 op).beginEarleme.forest.2 = s1.forest.2 := by
    cases op <;> rfl
  unfold Rec.position Rec.positionWith at hr
  obtain ⟨s2, h5, hr⟩ := bind_eq_pure hr
  have hsc := Rec.scanAll_ops hleo h5
  rw [hf1] at hsc
  have hc := h1'.ok hR.ok (la := E.lookahead) (sorter := E.sorter)
  obtain ⟨t1, ht1, cur, hmid, -⟩ := scanAll_spec hc h1'.pos (by show S.length < _; omega)
    (EC.keeps_true (ctxOf E.g (rulesOf c) root E.lookahead E.sorter (Rec.applyHint t op) S) toks) [] toks rfl
    (by show ∀ x ∈ toks, x.1 < E.g.syms + E.g.gensyms; rw [hR.all]; exact htoks)
    h1'.mid_begin trivial
  rw [Multiset.zero_add] at hmid
  have hdT : DotsOK E.g fun _ => True :=
    ⟨fun _ _ _ _ _ => trivial, fun _ _ _ _ _ => trivial, fun _ _ _ _ _ => trivial⟩
  have h5' : Rec.scanAll (FSim.env E.g E.lookahead false E.sorter E.counting.F)
      (Rec.applyHint s1 op).beginEarleme toks = pure s2 := by rw [henv]; exact h5
  obtain ⟨_, _, hrel2⟩ := (FSim.scanAll_rel (S := laxSim E.counting.F treeForest) (g := E.g)
    (la := E.lookahead) (leo := false) (so := E.sorter) hdT (FSim.begin_rel h4') (toks := toks)
    (fun _ _ => trivial)).both h5' ht1
  -- many groups
  have hmany : ∀ {l : List (Nat × Nat)} {t3 : TRec},
      Rec.Groups (ctxOf E.g (rulesOf c) root E.lookahead E.sorter (Rec.applyHint t op) S).E t1 l t3 → K.card ≤ l.length := by
    intro l t3 hgr
    obtain ⟨Fd, cur', hfix, hall⟩ := EC.groups_all hc hgr hmid
    have hmem : ∀ p ∈ K, ∃ o, loc[o]? = some p.2 ∧ (o, p.1) ∈ l := by
      intro p hp
      obtain ⟨⟨d, u, htree⟩, hctx⟩ := hK p hp
      obtain ⟨hfull, hb⟩ := hinv'.full trivial
      rw [← hWe] at hfix
      obtain ⟨o, ho, hz⟩ := hfix.complete hR.ok hT h1' hinv'.sound hfull hb
        (fun _ x hx => by rw [hla'] at hx; cases hx) htree rfl hctx
      refine ⟨o, ho, (hall _ hz).resolve_left fun h => ?_⟩
      obtain ⟨y, _, he⟩ := Multiset.mem_map.1 h
      simp at he
    choose! o ho hol using hmem
    have hinj : Set.InjOn (fun p => (o p, p.1)) (K : Set (Nat × Nat)) := by
      intro p hp q hq he
      simp only [Prod.mk.injEq] at he
      have h1 := ho p hp
      rw [he.1, ho q hq, Option.some.injEq] at h1
      exact Prod.ext he.2 h1.symm
    have := Finset.card_le_card_of_injOn (s := K) (t := l.toFinset) (fun p => (o p, p.1))
      (fun p hp => by simpa using hol p hp) hinj
    exact this.trans (List.toFinset_card_le l)
  unfold Rec.endEarlemeWith at hr
  obtain ⟨b, hb, hr⟩ := bind_eq_pure hr
  cases b with
  | true =>
    simp only [if_true] at hr
    rw [← pure_inj_M hr]
    have hemp : t1.complete = [] := by
      unfold Rec.isExhausted at hb
      obtain ⟨last, _, hb⟩ := bind_eq_pure hb
      have hb := pure_inj_M hb
      simp only [Bool.and_eq_true, List.isEmpty_iff] at hb
      have := hrel2.complete.length_eq
      rw [hb.2] at this
      exact List.eq_nil_of_length_eq_zero this.symm
    have := hmany (l := []) (t3 := t1) (.done (by unfold Rec.nextSum; rw [hemp]; rfl))
    simp only [List.length_nil, Nat.le_zero] at this
    rw [this]
    show s1.forest.2 + 0 ≤ s2.forest.2
    omega
  | false =>
    simp only [Bool.false_eq_true, if_false] at hr
    obtain ⟨s3, h6, hr⟩ := bind_eq_pure hr
    obtain ⟨s4, h7, hr⟩ := bind_eq_pure hr
    rw [← pure_inj_M hr]
    obtain ⟨l, s5, h8, rfl⟩ := groups_of_completeAll h6
    have hgo := Rec.groups_ops hleo h8
    rw [← henv] at h8
    obtain ⟨t3, hgt⟩ := groups_lax h8
      (c := ctxOf E.g (rulesOf c) root E.lookahead E.sorter (Rec.applyHint t op) S) rfl rfl rfl hc hmid hrel2
    have hcard := hmany hgt
    have e1 := (Rec.advance_keeps h7).1
    show s1.forest.2 + _ ≤ s4.forest.2
    rw [e1]
    show s1.forest.2 + _ ≤ s5.forest.2
    omega

/-! ### Right recursion -/

section
open Gearley.Example

/-- The input `sof a … a` with `k` tokens `a`, for the grammar `S ::= a S | a`. -/
def listSteps (k : Nat) : List Step := (.keep, [(1, 0)]) :: List.replicate k (.keep, [(4, 0)])

theorem listSteps_succ (k : Nat) : listSteps (k + 1) = listSteps k ++ [(.keep, [(4, 0)])] := by
  rw [listSteps, listSteps, List.replicate_succ', List.cons_append]

theorem listSteps_tokens (k : Nat) : TokensOK Right.cfg.numSyms (listSteps k) := by
  intro st hst p hp
  rcases List.mem_cons.1 hst with rfl | hst
  · simp at hp; subst hp; decide
  · obtain ⟨_, rfl⟩ := List.mem_replicate.1 hst
    simp at hp; subst hp; decide

theorem listSteps_noHints (k : Nat) : NoHints (listSteps k) := by
  intro st hst x
  rcases List.mem_cons.1 hst with rfl | hst
  · simp
  · obtain ⟨_, rfl⟩ := List.mem_replicate.1 hst
    simp

theorem list_derives (k : Nat) : Derives (rulesOf Right.cfg) 3 (List.replicate k 4 ++ [3]) := by
  induction k with
  | zero => exact .refl 3
  | succ k ih =>
    have := Derives.binary (r := ⟨3, 4, some 3⟩) (R := rulesOf Right.cfg) (by decide) rfl (.refl 4) ih
    simpa [List.replicate_succ] using this

theorem listSteps_viable (k : Nat) : CanContinue Right.cfg Right.wrap (listSteps k) := by
  refine ⟨1 :: List.replicate k 4, by simp [listSteps], ?_, [3, 0], ?_⟩
  · have : ∀ m j, 1 ≤ j → j + m = k + 1 → Picks (inputOf (listSteps k)) j (List.replicate m 4) := by
      intro m
      induction m with
      | zero => intro j _ _; trivial
      | succ m ih =>
        intro j h1 h2
        obtain ⟨j, rfl⟩ : ∃ i, j = i + 1 := ⟨j - 1, by omega⟩
        exact ⟨⟨0, by simp [inputOf, listSteps, List.getElem?_replicate, show j < k by omega]⟩, ih _ (by omega) (by omega)⟩
    exact ⟨⟨0, by simp [inputOf, listSteps]⟩, this k 1 (by omega) (by omega)⟩
  · have h : Derives (rulesOf Right.cfg) 5 ([1] ++ (List.replicate k 4 ++ [3])) :=
      Derives.binary (r := ⟨5, 1, some 3⟩) (by decide) rfl (.refl 1) (list_derives k)
    have := Derives.binary (r := ⟨2, 5, some 0⟩) (R := rulesOf Right.cfg) (by decide) rfl h (.refl 0)
    simpa using (show Derives (rulesOf Right.cfg) Right.wrap.root _ from this)

/-- All suffixes of the list are used by the derivation of the list. -/
theorem suffix_used (k p : Nat) (h1 : 1 ≤ p) (hp : p ≤ k + 1) :
    Used (rulesOf Right.cfg) 2 (listSteps k ++ (.keep, [(4, 0)]) :: [(.keep, [(0, 0)])]) ((listSteps k).length + 1) (3, p) := by
  have hst : ∀ i, 1 ≤ i → i ≤ k + 1 →
      inputOf (listSteps k ++ (.keep, [(4, 0)]) :: [(.keep, [(0, 0)])]) i = [(4, 0)] := by
    intro i hi1 hi2
    obtain ⟨i, rfl⟩ : ∃ j, i = j + 1 := ⟨i - 1, by omega⟩
    refine inputOf_eq (st := (.keep, [(4, 0)])) ?_
    rw [show listSteps k ++ (.keep, [(4, 0)]) :: [(.keep, [(0, 0)])] = listSteps (k + 1) ++ [(.keep, [(0, 0)])] by
      rw [listSteps_succ]; simp]
    rw [List.getElem?_append_left (by simp [listSteps]; omega), listSteps, List.getElem?_cons_succ,
      List.getElem?_replicate_of_lt (by omega)]
  have hsof : inputOf (listSteps k ++ (.keep, [(4, 0)]) :: [(.keep, [(0, 0)])]) 0 = [(1, 0)] := rfl
  have heof : inputOf (listSteps k ++ (.keep, [(4, 0)]) :: [(.keep, [(0, 0)])]) (k + 2) = [(0, 0)] := by
    refine inputOf_eq (st := (.keep, [(0, 0)])) ?_
    rw [List.getElem?_append_right (by simp [listSteps]), show k + 2 - (listSteps k).length = 1 by simp [listSteps]]
    rfl
  have hlen : (listSteps k ++ (.keep, [(4, 0)]) :: [(.keep, [(0, 0)])] : List Step).length = k + 3 := by simp [listSteps]
  have hl1 : (listSteps k).length + 1 = k + 2 := by simp [listSteps]
  unfold Used
  rw [hlen, hl1]
  generalize inputOf (listSteps k ++ (.keep, [(4, 0)]) :: [(.keep, [(0, 0)])]) = W at hst hsof heof
  have hleaf : ∀ i, 1 ≤ i → i ≤ k + 1 → TreeOf (rulesOf Right.cfg) W (.leaf 4 0) 4 i (i + 1) :=
    fun i h1 h2 => .leaf (by rw [hst i h1 h2]; simp)
  constructor
  · have : ∀ m p, p + m = k + 1 → 1 ≤ p → ∃ d t, TreeOf (rulesOf Right.cfg) W (.node d t) 3 p (k + 2) := by
      intro m
      induction m with
      | zero =>
        intro p hp h1
        obtain rfl : p = k + 1 := by omega
        exact ⟨2, _, .unary (B := 4) rfl (hleaf _ h1 (by omega))⟩
      | succ m ih =>
        intro p hp h1
        obtain ⟨d, t, h⟩ := ih (p + 1) (by omega) (by omega)
        exact ⟨1, _, .binary (B := 4) (C := 3) rfl (hleaf p h1 (by omega)) h⟩
    exact this (k + 1 - p) p (by omega) h1
  · have hroot : Ctx (rulesOf Right.cfg) 2 W (k + 3) 5 0 (k + 2) :=
      .left (d := 0) (A := 2) (C := 0) rfl .root (.leaf (v := 0) (by rw [heof]; simp))
    have hS : Ctx (rulesOf Right.cfg) 2 W (k + 3) 3 1 (k + 2) :=
      .right (d := 3) (A := 5) (B := 1) rfl hroot (.leaf (v := 0) (by rw [hsof]; simp))
    have : ∀ m, m ≤ k → Ctx (rulesOf Right.cfg) 2 W (k + 3) 3 (m + 1) (k + 2) := by
      intro m
      induction m with
      | zero => intro _; exact hS
      | succ m ih =>
        intro hm
        exact .right (d := 1) (A := 3) (B := 4) rfl (ih (by omega)) (hleaf (m + 1) (by omega) (by omega))
    obtain ⟨m, rfl⟩ : ∃ m, p = m + 1 := ⟨p - 1, by omega⟩
    exact this m (by omega)

/-- C49 for right recursion: a list of `k` elements takes at least `k * (k + 1)` operations with the grammar `S ::= a S | a`,
for every forest. By C48 this is the right order of growth. -/
theorem C49_right_recursion (hg : E.g = Right.grammar) (hleo : E.leo = false)
    (hF : SafeStart E.F f Right.cfg.rules.length Right.cfg.numSyms) (k : Nat) (hk : k + 1 < 2 ^ 64) :
    ∃ r, (Rec.new E.counting (f, 0) >>= Rec.session E.counting (listSteps k)) = pure r ∧
      r.2 = true ∧ k * (k + 1) ≤ r.1.forest.2 := by
  have hB : Built Right.cfg 5 Right.wrap E.g := hg ▸ Right.built
  have hv : ∀ k, k + 1 < 2 ^ 64 → ∃ r, (Rec.new E.counting (f, 0) >>= Rec.session E.counting (listSteps k)) = pure r ∧
      r.2 = true := by
    intro k hk
    obtain ⟨r, h1, h2⟩ := C05_viable_prefix (E := E.counting) (f := (f, 0)) (steps := listSteps k) hB hleo (counting_safe hF 0)
      (listSteps_tokens k) (by
        intro st hst p hp
        rcases List.mem_cons.1 hst with rfl | hst
        · simp at hp; subst hp; decide
        · obtain ⟨_, rfl⟩ := List.mem_replicate.1 hst
          simp at hp; subst hp; decide) (listSteps_noHints k) (by simp [listSteps]; omega)
    exact ⟨r, h1, h2.2 (listSteps_viable k)⟩
  induction k with
  | zero =>
    obtain ⟨r, h1, h2⟩ := hv 0 hk
    exact ⟨r, h1, h2, by simp⟩
  | succ k ih =>
    obtain ⟨r0, h1, h2, h3⟩ := ih (by omega)
    obtain ⟨r, r', e1, e2, e3⟩ := C49_lower (E := E) (f := f) (pre := listSteps k) (st := (.keep, [(4, 0)]))
      (more := [(.keep, [(0, 0)])]) hB hleo hF (listSteps_succ k ▸ listSteps_tokens (k + 1))
      (listSteps_succ k ▸ listSteps_noHints (k + 1)) (by simp [listSteps]; omega)
      (K := (Finset.range (k + 1)).image fun i => (3, i + 1)) (by
        intro p hp
        obtain ⟨i, hi, rfl⟩ := Finset.mem_image.1 hp
        rw [Finset.mem_range] at hi
        exact suffix_used k (i + 1) (by omega) (by omega))
    rw [h1] at e1
    have e1 := pure_inj_M e1
    subst e1
    have e3 := e3 h2
    rw [Finset.card_image_of_injective _ (fun a b h => by simpa using h), Finset.card_range] at e3
    rw [← listSteps_succ] at e2
    obtain ⟨r2, e4, e5⟩ := hv (k + 1) hk
    rw [e2] at e4
    have e4 := pure_inj_M e4
    subst e4
    refine ⟨r', e2, e5, ?_⟩
    have : (k + 1) * (k + 1 + 1) = k * (k + 1) + 2 * (k + 1) := by ring
    omega

-- for example with a bocage
example {b : Simple.Bocage} (hb : Simple.Bocage.new Right.grammar.forestInfo = pure b) (k : Nat) (hk : k + 1 < 2 ^ 64) :
    ∃ r, (Rec.new (Env.counting { g := Right.grammar, F := Simple.forest, sorter := sorter }) (b, 0) >>=
        Rec.session (Env.counting { g := Right.grammar, F := Simple.forest, sorter := sorter }) (listSteps k)) = pure r ∧
      r.2 = true ∧ k * (k + 1) ≤ r.1.forest.2 :=
  C49_right_recursion rfl rfl ((C02_forests _ _).2.1 _ _ hb) k hk

end

end Gearley.Props
