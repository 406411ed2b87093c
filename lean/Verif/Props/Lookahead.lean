import Verif.Proofs.Seen
import Verif.Props.Recognition
import Verif.Props.Tables
import Verif.Props.Cost
import Mathlib.Order.Interval.Finset.Nat
import Mathlib.Tactic.Ring
import Mathlib.Tactic.Linarith
import Verif.Examples.Right

/-!
# C53: what look-ahead saves
-/

namespace Gearley.Props
open Gearley.Spec
variable {σ ν : Type} {c : Cfg} {n : Nat} {w : WrappedRoot} {E : Env σ ν} {f : σ}

/-- The hints in force at each position of a session, where `la` says whether look-ahead is used at all. The hint of the step
`e` says what comes after its tokens, at position `e + 1`. -/
def hintsOf (la : Bool) (steps : List Step) : Nat → Option Nat
  | 0 => none
  | e + 1 => if la then steps[e]?.bind fun st => hintOf st.1 else none

/-- Bound on the cost of a position, where `T b` contains the symbols that are found ending at `b`, with their starting positions, and
`K (C, m)` is at least the number of rules that wait for `C` at `m`. -/
def waitCost (syms rules : Nat) (T : Nat → Finset (Nat × Nat)) (K : Nat × Nat → Nat) (e : Nat) : Nat :=
  syms + 2 * (rules * (T e).card) + rules + ∑ q ∈ T (e + 1), (2 + rules + 2 * K q)

/-- Bound on the cost of a position, where `T b` contains the symbols that are found ending at `b`, with their starting positions. -/
def seenCost (syms rules : Nat) (T : Nat → Finset (Nat × Nat)) (e : Nat) : Nat :=
  syms + 2 * (rules * (T e).card) + rules + ∑ q ∈ T (e + 1), (2 + rules + 2 * (rules * (T q.2).card))

theorem waitCost_le {syms rules P e : Nat} {T : Nat → Finset (Nat × Nat)} {K : Nat × Nat → Nat} (hP : 1 ≤ P) :
    syms + 2 * (P * (rules * (T e).card)) + rules + P * ∑ q ∈ T (e + 1), (2 + rules + 2 * (P * K q)) ≤
      P ^ 2 * waitCost syms rules T K e := by
  have h1 : ∑ q ∈ T (e + 1), (2 + rules + 2 * (P * K q)) ≤ P * ∑ q ∈ T (e + 1), (2 + rules + 2 * K q) := by
    rw [Finset.mul_sum]
    refine Finset.sum_le_sum fun q _ => ?_
    have := Nat.le_mul_of_pos_left (2 + rules) hP
    rw [Nat.mul_add P (2 + rules)]
    nlinarith
  have h2 : P ≤ P ^ 2 := by rw [Nat.pow_two]; exact Nat.le_mul_of_pos_left _ hP
  have h3 : 1 ≤ P ^ 2 := hP.trans h2
  have h4 := Nat.mul_le_mul_left P h1
  unfold waitCost
  generalize ∑ q ∈ T (e + 1), (2 + rules + 2 * (P * K q)) = X at h4 ⊢
  generalize ∑ q ∈ T (e + 1), (2 + rules + 2 * K q) = Y at h4 ⊢
  nlinarith [Nat.mul_le_mul_right syms h3, Nat.mul_le_mul_right rules h3, Nat.mul_le_mul_right (rules * (T e).card) h2]

theorem _root_.Gearley.Bounded.pos {R : Rules} {start : Nat} {W : Input} {P : Nat} (h : Bounded R start W P) : 1 ≤ P := by
  rcases h with ⟨rfl, _⟩ | ⟨p, hp, hP⟩
  · omega
  · exact (le_trans (Nat.le_add_right _ _) (hp 0)).trans (hP 0)

theorem waiting_bounded (hB : Built c n w E.g) (hleo : E.leo = false)
    (hF : SafeStart E.F f c.rules.length c.numSyms) {steps : List Step} (htok : TokensOK c.numSyms steps)
    (hin : HintsIn n steps) (hlen : steps.length + 1 < 2 ^ 64)
    (hterm : ∀ st ∈ steps, (st.2.map (·.1)).Nodup ∧ Terminals c n (st.2.map (·.1)))
    {P : Nat} (ho : Bounded (rulesOf c) w.root (inputOf steps) P) {T : Nat → Finset (Nat × Nat)}
    (hT : ∀ b A a, Pred (rulesOf c) w.root (inputOf steps) a A →
      Seen E.g.firstHas E.g.followHas n (rulesOf c) (inputOf steps) (hintsOf E.lookahead steps) b A a → (A, a) ∈ T b)
    {K : Nat × Nat → Nat}
    (hK : ∀ b C m, Pred (rulesOf c) w.root (inputOf steps) m C →
      Seen E.g.firstHas E.g.followHas n (rulesOf c) (inputOf steps) (hintsOf E.lookahead steps) b C m → ∀ F : Finset (Nat × Nat),
      (∀ p ∈ F, ∃ A B, (rulesOf c)[p.1]? = some ⟨A, B, some C⟩ ∧ Pred (rulesOf c) w.root (inputOf steps) p.2 A ∧
        Seen E.g.firstHas E.g.followHas n (rulesOf c) (inputOf steps) (hintsOf E.lookahead steps) m B p.2) → F.card ≤ K (C, m)) :
    ∃ r, (Rec.new E.counting (f, 0) >>= Rec.session E.counting steps) = pure r ∧
      r.1.forest.2 ≤ P ^ 2 * ∑ e ∈ Finset.range steps.length, waitCost c.numSyms c.rules.length T K e ∧
      (r.2 = true → r.1.medial.itemCount ≤ P * (c.rules.length * ∑ b ∈ Finset.range (steps.length + 1), (T b).card)) := by
  obtain ⟨root, rank, g0, hR⟩ := hB.ready
  have hPpos := ho.pos
  have hRl : (rulesOf c).length = c.rules.length := by simp [rulesOf]
  obtain ⟨okDot, okLeaf, SF, w0, hI, hd, hl⟩ := counting_safe hF 0
  have hd' := hR.dots hd
  have henv : FSim.env E.g E.lookahead false E.sorter E.counting.F = E.counting := by
    simp only [FSim.env, Env.counting, hleo]
  have hhi : HintsAre (hintsOf E.lookahead steps) E.lookahead 0 steps := by
    intro i st hst
    rw [Nat.zero_add, hintsOf, hst]
    rfl
  generalize hW : inputOf steps = W at hT hK ho
  generalize hintsOf E.lookahead steps = hint at hhi hT hK
  rw [← hR.syms, ← hR.start] at hT hK
  rw [← hR.start] at ho
  have htt : TermToks (rulesOf c) W := by
    intro i
    rw [← hW]
    unfold inputOf
    cases hst : steps[i]? with
    | none => simp
    | some st =>
      have := hterm st (List.mem_of_getElem? hst)
      exact ⟨this.1, fun t ht => (this.2 t.1 (List.mem_map_of_mem ht)).2⟩
  have hWin : StepsIn W 0 steps := by
    intro i st hst
    rw [← hW, Nat.zero_add, inputOf_eq hst]
  clear hW
  -- the state after a part of the session
  have key : ∀ steps : List Step, TokensOK c.numSyms steps → HintsIn n steps → steps.length + 1 < 2 ^ 64 →
      StepsIn W 0 steps → HintsAre hint E.lookahead 0 steps →
      ∃ r, (Rec.new E.counting (f, 0) >>= Rec.session E.counting steps) = pure r ∧ (r.2 = true →
        ∃ t S loc, (t.lookahead = none ∧ SeenAt E.g (rulesOf c) P W hint t steps.length S loc) ∧
          ∃ w, SF.sim.RIdle w r.1 t) := by
    intro steps htok hin hlen hWin hhi
    have := sim_run (la := E.lookahead) (so := E.sorter) SF.sim hd' (f0 := []) (w := w0) hI
      (fun st hst p hp => hl p.1 p.2 (htok st hst p hp).1 (htok st hst p hp).2)
      (new_seen_at (la := E.lookahead) (sorter := E.sorter) hR.ok hR.ranked ho htt (by omega) (stepsOK_of hR htok hin) hWin hhi [])
    rw [show FSim.env E.g E.lookahead false E.sorter (counting E.F) = E.counting from henv] at this
    obtain ⟨r, h, r0, w', hq, hrel, hr0⟩ := this
    refine ⟨r, h, fun ht => ?_⟩
    obtain ⟨hl, S, loc, hinv⟩ := hq (hr0 ▸ ht)
    exact ⟨r0.1, S, loc, ⟨hl, hinv⟩, w', hrel⟩
  obtain ⟨r, hr, hrest⟩ := key steps htok hin hlen hWin hhi
  refine ⟨r, hr, ?_, fun hok => ?_⟩
  swap
  · obtain ⟨t, S, loc, ⟨_, hinv⟩, w', h4⟩ := hrest hok
    have e1 : r.1.medial.itemCount = S.flatten.length := by
      have := h4.medial.2.length_eq
      rw [hinv.rest.medial] at this
      exact this
    rw [e1, ← hRl]
    exact hinv.items hT
  clear hrest
  induction steps using List.reverseRecOn generalizing r with
  | nil =>
    obtain ⟨s0, h0, h1⟩ := bind_eq_pure hr
    have h1 := pure_inj_M h1
    unfold Rec.new at h0
    obtain ⟨p, _, h0⟩ := bind_eq_pure h0
    rw [← h1, ← pure_inj_M h0]
    simp
  | append_singleton pre st ih =>
    have hsub : ∀ x ∈ pre, x ∈ pre ++ [st] := fun x h => List.mem_append_left _ h
    simp only [List.length_append, List.length_singleton] at hlen ⊢
    have hp1 : TokensOK c.numSyms pre := fun x h => htok x (hsub x h)
    have hp2 : HintsIn n pre := fun x h => hin x (hsub x h)
    have hp3 := fun x h => hterm x (hsub x h)
    have hp4 : StepsIn W 0 pre := fun i x hx => hWin i x (by
      rw [List.getElem?_append_left (List.getElem?_eq_some_iff.1 hx).1]; exact hx)
    have hp5 : HintsAre hint E.lookahead 0 pre := fun i x hx => hhi i x (by
      rw [List.getElem?_append_left (List.getElem?_eq_some_iff.1 hx).1]; exact hx)
    obtain ⟨r1, hr1, hrest1⟩ := key pre hp1 hp2 (by omega) hp4 hp5
    have hi := ih hp1 hp2 (by omega) hp3 hp5 hp4 r1 hr1
    rw [Finset.sum_range_succ, Nat.mul_add]
    obtain ⟨s0, h0, hr⟩ := bind_eq_pure hr
    rw [h0, pure_bind] at hr1
    obtain ⟨op, toks⟩ := st
    rw [Rec.session_snoc, hr1, pure_bind] at hr
    obtain ⟨s1, ok⟩ := r1
    cases ok with
    | false =>
      simp only [Bool.false_eq_true, if_false] at hr
      rw [← pure_inj_M hr]
      exact hi.trans (Nat.le_add_right _ _)
    | true =>
      simp only [if_true] at hr
      obtain ⟨t, S, loc, ⟨hnone, hinv⟩, w', h4⟩ := hrest1 rfl
      have hpos := hinv.rest.pos
      have hSl := hinv.sound.length_le hpos
      have hWe : W pre.length = toks := by
        have := hWin pre.length (op, toks) (by simp)
        rwa [Nat.zero_add] at this
      have hstop : ∀ x, op = .set x → x < E.g.syms := by
        intro x hx
        rw [hR.syms]
        exact hin (op, toks) (by simp) x hx
      have htoks : ∀ p ∈ toks, p.1 < c.numSyms := fun p hp => (htok (op, toks) (by simp) p hp).1
      have hinv' := hinv.hintOp op hstop
      have h1' := hinv'.rest
      have hh : hint (pre.length + 1) = if E.lookahead then (Rec.applyHint t op).lookahead else none := by
        rw [applyHint_none hnone]
        have := hhi pre.length (op, toks) (by simp)
        rwa [Nat.zero_add] at this
      have h4' : (laxSim E.counting.F treeForest).RIdle () (Rec.applyHint s1 op) (Rec.applyHint t op) :=
        FSim.applyHint_rel (ridle_lax h4) op
      have hcost1 : (Rec.applyHint s1 op).cost = s1.forest.2 := by
        have := h4.complete.length_eq
        rw [hinv.rest.empty] at this
        cases op <;> simp [Rec.applyHint, Rec.cost, Rec.setHint, Rec.clearHint] <;> simpa using this
      unfold Rec.position Rec.positionWith at hr
      obtain ⟨s2, h5, hr⟩ := bind_eq_pure hr
      have hsc := scanAll_cost hleo rfl hR.ok h1' (by omega) h4' (by rw [hR.all]; exact htoks) h5
      have hKl : (S[S.length - 1]?.getD []).length ≤ P * (c.rules.length * (T pre.length).card) := by
        rw [← hRl]
        cases hS : S[S.length - 1]? with
        | none => simp
        | some l => exact hinv'.set_length hT hS hinv'.sound.last
      have hsc2 := sum_tokenCost_le (rulesOf c) S (o := S.length - 1) (N := c.numSyms) (l := toks.map (·.1))
        (hterm (op, toks) (by simp)).1 (by simpa using fun a b h => htoks (a, b) h) hKl
      have hw := waitCost_le (syms := c.numSyms) (rules := c.rules.length) (T := T) (K := K) (e := pre.length) hPpos
      have hfin : r.1.forest.2 ≤ s1.forest.2 + P ^ 2 * waitCost c.numSyms c.rules.length T K pre.length := by
        refine le_trans ?_ (Nat.add_le_add_left hw _)
        unfold Rec.endEarlemeWith at hr
        obtain ⟨b, _, hr⟩ := bind_eq_pure hr
        rw [hRl] at hsc2
        cases b with
        | true =>
          simp only [if_true] at hr
          rw [← pure_inj_M hr]
          have : s2.forest.2 ≤ s2.cost := Nat.le_add_right _ _
          show s2.forest.2 ≤ _
          omega
        | false =>
          simp only [Bool.false_eq_true, if_false] at hr
          obtain ⟨s3, h6, hr⟩ := bind_eq_pure hr
          obtain ⟨s4, h7, hr⟩ := bind_eq_pure hr
          rw [← pure_inj_M hr]
          obtain ⟨l, s5, h8, rfl⟩ := groups_of_completeAll h6
          have hc := h1'.ok hR.ok (la := E.lookahead) (sorter := E.sorter)
          obtain ⟨t1, ht1, scans, cur, hmid, hheap, hscans⟩ := hinv'.mid hR.ok (la := E.lookahead) (sorter := E.sorter) hh (by omega) (by rw [hWe, hR.all]; exact htoks)
          rw [hWe] at ht1
          have hdT : DotsOK E.g fun _ => True :=
            ⟨fun _ _ _ _ _ => trivial, fun _ _ _ _ _ => trivial, fun _ _ _ _ _ => trivial⟩
          have h5' : Rec.scanAll (FSim.env E.g E.lookahead false E.sorter E.counting.F)
              (Rec.applyHint s1 op).beginEarleme toks = pure s2 := by rw [henv]; exact h5
          obtain ⟨_, _, hrel2⟩ := (FSim.scanAll_rel (S := laxSim E.counting.F treeForest) (g := E.g)
            (la := E.lookahead) (leo := false) (so := E.sorter) hdT (FSim.begin_rel h4') (toks := toks)
            (fun _ _ => trivial)).both h5' ht1
          obtain ⟨hb, hgc⟩ := groups_cost hleo h8
            (c := ctxOf E.g (rulesOf c) root E.lookahead E.sorter (Rec.applyHint t op) S) rfl rfl rfl hc hmid hrel2
          have h8' := h8
          rw [← henv] at h8'
          obtain ⟨t3, hgt⟩ := groups_lax h8'
            (c := ctxOf E.g (rulesOf c) root E.lookahead E.sorter (Rec.applyHint t op) S) rfl rfl rfl hc hmid hrel2
          have hnd := hinv'.groups_count hR.ok hR.ranked ho htt hh hgt hmid hheap hscans
          have hgs := hinv'.groups hR.ok hh hgt hmid hheap
          have hsum := hinv'.sum_groupCost hT hK hnd hgs
          rw [hRl] at hsum
          have e1 := (Rec.advance_keeps h7).1
          have e2 : s4.forest.2 ≤ s5.cost := by rw [e1]; exact Nat.le_add_right _ _
          show s4.forest.2 ≤ _
          have hgc : s5.cost ≤ s2.cost + (l.map (groupCost (rulesOf c) S)).sum := hgc
          omega
      have hi : s1.forest.2 ≤ P ^ 2 * ∑ e ∈ Finset.range pre.length, waitCost c.numSyms c.rules.length T K e := hi
      omega

/-- C53. The work of a session, measured as in C43, is bounded by the number of symbols that are found with look-ahead, each of
which costs at most as much as there are rules waiting for it where it begins. The items in the chart are bounded in the same way. -/
theorem C53_waiting (hB : Built c n w E.g) (hleo : E.leo = false)
    (hF : SafeStart E.F f c.rules.length c.numSyms) {steps : List Step} (htok : TokensOK c.numSyms steps)
    (hin : HintsIn n steps) (hlen : steps.length + 1 < 2 ^ 64)
    (hterm : ∀ st ∈ steps, (st.2.map (·.1)).Nodup ∧ Terminals c n (st.2.map (·.1)))
    (ho : UnaryOrdered (rulesOf c) ∨ SingleTrees (rulesOf c) w.root (inputOf steps)) {T : Nat → Finset (Nat × Nat)}
    (hT : ∀ b A a, Pred (rulesOf c) w.root (inputOf steps) a A →
      Seen E.g.firstHas E.g.followHas n (rulesOf c) (inputOf steps) (hintsOf E.lookahead steps) b A a → (A, a) ∈ T b)
    {K : Nat × Nat → Nat}
    (hK : ∀ b C m, Pred (rulesOf c) w.root (inputOf steps) m C →
      Seen E.g.firstHas E.g.followHas n (rulesOf c) (inputOf steps) (hintsOf E.lookahead steps) b C m → ∀ F : Finset (Nat × Nat),
      (∀ p ∈ F, ∃ A B, (rulesOf c)[p.1]? = some ⟨A, B, some C⟩ ∧ Pred (rulesOf c) w.root (inputOf steps) p.2 A ∧
        Seen E.g.firstHas E.g.followHas n (rulesOf c) (inputOf steps) (hintsOf E.lookahead steps) m B p.2) → F.card ≤ K (C, m)) :
    ∃ r, (Rec.new E.counting (f, 0) >>= Rec.session E.counting steps) = pure r ∧
      r.1.forest.2 ≤ ∑ e ∈ Finset.range steps.length, waitCost c.numSyms c.rules.length T K e ∧
      (r.2 = true → r.1.medial.itemCount ≤ c.rules.length * ∑ b ∈ Finset.range (steps.length + 1), (T b).card) := by
  obtain ⟨r, h1, h2, h3⟩ := waiting_bounded hB hleo hF htok hin hlen hterm (P := 1) (.inl ⟨rfl, ho⟩) hT hK
  exact ⟨r, h1, by simpa using h2, by simpa using h3⟩

/-- C53. The work of a session, measured as in C43, is bounded by the number of symbols that are found with look-ahead, each of
which costs at most as much as there are rules waiting for it where it begins. The items in the chart are bounded in the same way.
This is for whatever order of the symbols, with factors for the number `P` of chains of one-symbol rules. -/
theorem C53_chains (hB : Built c n w E.g) (hleo : E.leo = false)
    (hF : SafeStart E.F f c.rules.length c.numSyms) {steps : List Step} (htok : TokensOK c.numSyms steps)
    (hin : HintsIn n steps) (hlen : steps.length + 1 < 2 ^ 64)
    (hterm : ∀ st ∈ steps, (st.2.map (·.1)).Nodup ∧ Terminals c n (st.2.map (·.1)))
    {p : Nat → Nat} {P : Nat}
    (hp : ChainBound (rulesOf c) p) (hP : ∀ A, p A ≤ P) {T : Nat → Finset (Nat × Nat)}
    (hT : ∀ b A a, Pred (rulesOf c) w.root (inputOf steps) a A →
      Seen E.g.firstHas E.g.followHas n (rulesOf c) (inputOf steps) (hintsOf E.lookahead steps) b A a → (A, a) ∈ T b)
    {K : Nat × Nat → Nat}
    (hK : ∀ b C m, Pred (rulesOf c) w.root (inputOf steps) m C →
      Seen E.g.firstHas E.g.followHas n (rulesOf c) (inputOf steps) (hintsOf E.lookahead steps) b C m → ∀ F : Finset (Nat × Nat),
      (∀ p ∈ F, ∃ A B, (rulesOf c)[p.1]? = some ⟨A, B, some C⟩ ∧ Pred (rulesOf c) w.root (inputOf steps) p.2 A ∧
        Seen E.g.firstHas E.g.followHas n (rulesOf c) (inputOf steps) (hintsOf E.lookahead steps) m B p.2) → F.card ≤ K (C, m)) :
    ∃ r, (Rec.new E.counting (f, 0) >>= Rec.session E.counting steps) = pure r ∧
      r.1.forest.2 ≤ P ^ 2 * ∑ e ∈ Finset.range steps.length, waitCost c.numSyms c.rules.length T K e ∧
      (r.2 = true → r.1.medial.itemCount ≤ P * (c.rules.length * ∑ b ∈ Finset.range (steps.length + 1), (T b).card)) :=
  waiting_bounded hB hleo hF htok hin hlen hterm (.inr ⟨p, hp, hP⟩) hT hK

theorem work_bounded (hB : Built c n w E.g) (hleo : E.leo = false)
    (hF : SafeStart E.F f c.rules.length c.numSyms) {steps : List Step} (htok : TokensOK c.numSyms steps)
    (hin : HintsIn n steps) (hlen : steps.length + 1 < 2 ^ 64)
    (hterm : ∀ st ∈ steps, (st.2.map (·.1)).Nodup ∧ Terminals c n (st.2.map (·.1)))
    {P : Nat} (ho : Bounded (rulesOf c) w.root (inputOf steps) P) {T : Nat → Finset (Nat × Nat)}
    (hT : ∀ b A a, Pred (rulesOf c) w.root (inputOf steps) a A →
      Seen E.g.firstHas E.g.followHas n (rulesOf c) (inputOf steps) (hintsOf E.lookahead steps) b A a → (A, a) ∈ T b) :
    ∃ r, (Rec.new E.counting (f, 0) >>= Rec.session E.counting steps) = pure r ∧
      r.1.forest.2 ≤ P ^ 2 * ∑ e ∈ Finset.range steps.length, seenCost c.numSyms c.rules.length T e := by
  refine (waiting_bounded (K := fun q => c.rules.length * (T q.2).card) hB hleo hF htok hin hlen hterm ho hT ?_).imp fun _ h => ⟨h.1, h.2.1⟩
  intro b C m _ _ F hF'
  obtain ⟨root, rank, g0, hR⟩ := hB.ready
  have hRl : (rulesOf c).length = c.rules.length := by simp [rulesOf]
  rw [← hRl]
  rw [← hR.syms, ← hR.start] at hT hF'
  exact waits_card hT hF'

/-- C53. The work of a session, measured as in C43, is bounded by the number of symbols that are found with look-ahead, each of
which costs at most as much as there were symbols found ending where it begins. -/
theorem C53_work (hB : Built c n w E.g) (hleo : E.leo = false) (ho : UnaryOrdered (rulesOf c))
    (hF : SafeStart E.F f c.rules.length c.numSyms) {steps : List Step} (htok : TokensOK c.numSyms steps)
    (hin : HintsIn n steps) (hlen : steps.length + 1 < 2 ^ 64)
    (hterm : ∀ st ∈ steps, (st.2.map (·.1)).Nodup ∧ Terminals c n (st.2.map (·.1)))
    {T : Nat → Finset (Nat × Nat)}
    (hT : ∀ b A a, Pred (rulesOf c) w.root (inputOf steps) a A →
      Seen E.g.firstHas E.g.followHas n (rulesOf c) (inputOf steps) (hintsOf E.lookahead steps) b A a → (A, a) ∈ T b) :
    ∃ r, (Rec.new E.counting (f, 0) >>= Rec.session E.counting steps) = pure r ∧
      r.1.forest.2 ≤ ∑ e ∈ Finset.range steps.length, seenCost c.numSyms c.rules.length T e := by
  obtain ⟨r, h1, h2⟩ := work_bounded hB hleo hF htok hin hlen hterm (P := 1) (.inl ⟨rfl, .inl ho⟩) hT
  exact ⟨r, h1, by simpa using h2⟩

/-! ### Right-linear grammars -/

/-- What `X` derives has at most `L` symbols. -/
def Short (R : Rules) (L X : Nat) : Prop := ∀ v, Derives R X v → v.length ≤ L

theorem seen_derives {first follow : Nat → Nat → Prop} {syms : Nat} {R : Rules} {inp : Input} {hint : Nat → Option Nat}
    {b A a : Nat} (h : Seen first follow syms R inp hint b A a) :
    a < b ∧ ∃ v, Derives R A v ∧ v.length = b - a := by
  induction h with
  | token _ => exact ⟨by omega, _, .refl _, by simp⟩
  | unary hr _ _ ih =>
    obtain ⟨h1, v, h2, h3⟩ := ih
    exact ⟨h1, v, .unary hr rfl h2, h3⟩
  | binary hr _ _ _ _ ih1 ih2 =>
    obtain ⟨h1, v, h2, h3⟩ := ih1
    obtain ⟨k1, v', k2, k3⟩ := ih2
    exact ⟨by omega, v ++ v', .binary hr rfl h2 k2, by simp; omega⟩

theorem seen_end {first follow : Nat → Nat → Prop} {syms : Nat} {R : Rules} {inp : Input} {hint : Nat → Option Nat}
    {b A a : Nat} (h : Seen first follow syms R inp hint b A a) : ∃ e, b = e + 1 ∧ inp e ≠ [] := by
  induction h with
  | token h => exact ⟨_, rfl, List.ne_nil_of_mem h⟩
  | unary _ _ _ ih => exact ih
  | binary _ _ _ _ _ _ ih2 => exact ih2

/-- Symbols of unbounded length are last: only the end marker follows them. A generated symbol of unbounded length only begins
rules of the start symbol. -/
structure LongLast (R : Rules) (n start eof L : Nat) (follow : Nat → Nat → Prop) : Prop where
  pos : 1 ≤ L
  last : ∀ r ∈ R, r.lhs < n → r.lhs ≠ start → Short R L r.lhs ∨ ∀ h, h < n → follow r.lhs h → h = eof
  gen : ∀ A, n ≤ A → Short R L A ∨ ∀ r ∈ R, r.rhs1 ≠ some A ∧ (r.rhs0 = A → r.lhs = start)

/-- Factor of the bound in `C53_parse`. -/
def lookCost (syms rules L : Nat) : Nat :=
  syms + 2 * (rules * (syms * (L + 1))) + rules + (syms * (L + 1) + syms) * (2 + rules + 2 * (rules * (syms * (L + 1))))

/-- What is found in `parse` with look-ahead: the short symbols, what begins at the start, and all others only at the end. -/
theorem LongLast.seen {R : Rules} {start eof L : Nat} {first follow : Nat → Nat → Prop}
    (h : LongLast R n start eof L follow) (hs : ∀ r ∈ R, r.rhs0 ≠ start ∧ r.rhs1 ≠ some start) (hst : start < n)
    {sof : Nat} {u : List Nat} (hu : ∀ t ∈ u, t < n ∧ t ≠ eof) {b A a : Nat}
    (hp : Pred R start (inputOf (parseSteps sof u)) a A)
    (hv : Seen first follow n R (inputOf (parseSteps sof u)) (hintsOf true (parseSteps sof u)) b A a) :
    b ≤ u.length + 1 ∧ a < b ∧ (a = 0 ∨ b - L ≤ a ∨ b = u.length + 1) := by
  obtain ⟨hab, v, hd, hvl⟩ := seen_derives hv
  obtain ⟨e, rfl, he⟩ := seen_end hv
  have hle : e < u.length + 1 := by
    by_contra hge
    apply he
    unfold inputOf
    rw [List.getElem?_eq_none (by rw [parseSteps_length]; omega)]
  refine ⟨by omega, hab, ?_⟩
  by_cases hz : a = 0
  · exact .inl hz
  by_cases hlast : e + 1 = u.length + 1
  · exact .inr (.inr hlast)
  refine .inr (.inl ?_)
  have hshort : Short R L A → e + 1 - L ≤ a := fun hS => by have := hS v hd; omega
  have hstart : ∀ {p X}, Pred R start (inputOf (parseSteps sof u)) p X → X = start → p = 0 := by
    intro p X hX he
    cases hX with
    | start => rfl
    | corner _ hc => obtain ⟨r, hr, _, e2⟩ := hc; exact absurd (e2.trans he) (hs r hr).1
    | medial hr => exact absurd (congrArg some he) (hs _ (List.mem_of_getElem? hr)).2
  -- a generated symbol
  have hgen : ∀ {X}, n ≤ X → Pred R start (inputOf (parseSteps sof u)) a X → Short R L X := by
    intro X hX hpX
    refine (h.gen X hX).resolve_right fun hno => hz ?_
    cases hpX with
    | start => rfl
    | corner hp' hc => obtain ⟨r, hr, e1, e2⟩ := hc; exact hstart hp' (e1.symm.trans ((hno r hr).2 e2))
    | medial hr => exact absurd rfl (hno _ (List.mem_of_getElem? hr)).1
  -- the hint
  have hhint : ∃ x, hintsOf true (parseSteps sof u) (e + 1) = some x ∧ x < n ∧ x ≠ eof := by
    obtain ⟨k, rfl⟩ : ∃ k, e = k + 1 := ⟨e - 1, by omega⟩
    have hk : k + 1 < u.length := by omega
    refine ⟨u[k + 1], ?_, hu _ (List.getElem_mem hk)⟩
    have hlen : k < (tokSteps 0 u).length := by rw [tokSteps_length]; omega
    have hget : (parseSteps sof u)[k + 1]? = some (tokSteps 0 u)[k] := by
      rw [parseSteps, List.getElem?_cons_succ, List.getElem?_eq_getElem hlen]
    obtain ⟨t, _, _, h3⟩ := tokSteps_getElem? 0 u k (List.getElem?_eq_getElem hlen)
    rw [List.getElem?_eq_getElem hk] at h3
    rw [hintsOf, hget]
    simp [h3, hintOf]
  obtain ⟨x, hx, hxn, hxe⟩ := hhint
  have hfol : ∀ {r}, r ∈ R → r.lhs = A → (n ≤ A ∨ ∀ h, hintsOf true (parseSteps sof u) (e + 1) = some h → follow A h) →
      e + 1 - L ≤ a := by
    intro r hr hA hf
    rcases hf with hf | hf
    · exact hshort (hgen hf hp)
    · rcases Nat.lt_or_ge A n with hlt | hge
      · by_cases hsA : A = start
        · exact absurd (hstart hp hsA) hz
        · refine hshort (((hA ▸ h.last r hr (hA ▸ hlt) (hA ▸ hsA)) : Short R L A ∨ _).resolve_right fun hno => hxe ?_)
          exact hno x hxn (hA ▸ hf x hx)
      · exact hshort (hgen hge hp)
  cases hv with
  | token _ => have := h.pos; omega
  | @unary _ _ B _ hr hB hf =>
    rcases hf with hf | hf
    · have hpB : Pred R start (inputOf (parseSteps sof u)) a B := .corner hp ⟨_, hr, rfl, rfl⟩
      obtain ⟨_, v', hd', hv'⟩ := seen_derives hB
      have := hgen hf hpB v' hd'
      omega
    · exact hfol hr rfl hf
  | binary hr _ _ _ hf => exact hfol hr rfl hf

theorem parse_bounded (hB : Built c n w E.g) (hleo : E.leo = false) (hla : E.lookahead = true)
    (hF : SafeStart E.F f c.rules.length c.numSyms) {L : Nat}
    (hL : LongLast (rulesOf c) n w.root w.eof L E.g.followHas) {toks u : List Nat} (hi : Internals E.g toks u)
    (ht : Terminals c n u) {P : Nat} (ho : Bounded (rulesOf c) w.root (inputOf (parseSteps w.sof u)) P) (hne : w.eof ∉ u) (hlen : u.length + 1 < 2 ^ 64 - 1) :
    ∃ s res, (Rec.new E.counting (f, 0) >>= fun s => Rec.parse E.counting s toks) = pure (s, res) ∧
      s.forest.2 ≤ P ^ 2 * (lookCost c.numSyms c.rules.length L * (u.length + 1)) := by
  obtain ⟨depth, hc⟩ := hB.processed
  have hs : w.sof < c.numSyms := Nat.lt_of_lt_of_le hB.sof_lt hc.syms_le
  have hlt : ∀ t ∈ u, t < c.numSyms := fun t h => Nat.lt_of_lt_of_le (ht t h).1 hc.syms_le
  have htok : TokensOK c.numSyms (parseSteps w.sof u) := parseSteps_tokens hs hlt
  have hin : HintsIn n (parseSteps w.sof u) := parseSteps_hints fun t h => (ht t h).1
  have hterm : ∀ st ∈ parseSteps w.sof u, (st.2.map (·.1)).Nodup ∧ Terminals c n (st.2.map (·.1)) := by
    intro st hst
    obtain ⟨k, hk⟩ := List.getElem?_of_mem hst
    obtain ⟨⟨v, hv, x, _, hx⟩, _⟩ := parseSteps_get hk
    rw [hx]
    refine ⟨by simp, fun t htm => ?_⟩
    simp only [List.map_cons, List.map_nil, List.mem_singleton] at htm
    subst htm
    rcases List.mem_cons.1 (List.mem_of_getElem? hv) with rfl | hv
    · exact ⟨hB.sof_lt, hB.sofTerm⟩
    · exact ht t hv
  have hRlhs : ∀ r ∈ rulesOf c, r.lhs < c.numSyms := by
    intro r hr
    obtain ⟨cr, hcr, rfl⟩ := List.mem_map.1 hr
    exact hc.lhs_lt cr hcr
  obtain ⟨root, rank, g0, hR⟩ := hB.ready
  have hnot : ∀ r ∈ rulesOf c, r.rhs0 ≠ w.root ∧ r.rhs1 ≠ some w.root := by
    intro r hr
    rw [← hR.start]
    exact ⟨hR.ok.startNot0 r hr, hR.ok.startNot1 r hr⟩
  -- what is found
  let T : Nat → Finset (Nat × Nat) := fun b => Finset.range c.numSyms ×ˢ
    (if b = u.length + 1 then Finset.range b else insert 0 (Finset.Ico (b - L) b))
  obtain ⟨r, hr, hcost⟩ := work_bounded (T := T) hB hleo hF htok hin (by rw [parseSteps_length]; omega) hterm ho (by
    intro b A a hp hv
    rw [hla] at hv
    obtain ⟨h1, h2, h3⟩ := hL.seen hnot hc.start_lt (fun t h => ⟨(ht t h).1, fun he => hne (he ▸ h)⟩) hp hv
    have hA : A < c.numSyms := by
      cases hv with
      | token hm =>
        unfold inputOf at hm
        split at hm
        · rename_i st hst
          exact (htok st (List.mem_of_getElem? hst) _ hm).1
        · cases hm
      | unary hd _ _ => exact hRlhs _ hd
      | binary hd _ _ _ _ => exact hRlhs _ hd
    simp only [T, Finset.mem_product, Finset.mem_range]
    refine ⟨hA, ?_⟩
    split
    · rw [Finset.mem_range]; exact h2
    · rw [Finset.mem_insert, Finset.mem_Ico]; omega)
  -- the bound
  have hcard : ∀ b, b ≠ u.length + 1 → (T b).card ≤ c.numSyms * (L + 1) := by
    intro b hb
    simp only [T, if_neg hb, Finset.card_product, Finset.card_range]
    refine Nat.mul_le_mul_left _ ((Finset.card_insert_le _ _).trans ?_)
    rw [Nat.card_Ico]
    omega
  have hD : ∀ b, b ≤ u.length + 1 → 0 < b →
      ∑ q ∈ T b, (2 + c.rules.length + 2 * (c.rules.length * (T q.2).card)) ≤
        (T b).card * (2 + c.rules.length + 2 * (c.rules.length * (c.numSyms * (L + 1)))) := by
    intro b hb hpos
    rw [← Nat.nsmul_eq_mul]
    refine Finset.sum_le_card_nsmul _ _ _ fun q hq => ?_
    have hq2 : q.2 < b := by
      simp only [T, Finset.mem_product] at hq
      have := hq.2
      split at this
      · exact Finset.mem_range.1 this
      · rcases Finset.mem_insert.1 this with h0 | h0
        · omega
        · exact (Finset.mem_Ico.1 h0).2
    have := Nat.mul_le_mul_left c.rules.length (hcard q.2 (by omega))
    omega
  have hsum : ∑ e ∈ Finset.range (u.length + 1), seenCost c.numSyms c.rules.length T e ≤
      lookCost c.numSyms c.rules.length L * (u.length + 1) := by
    have hlastc : (T (u.length + 1)).card = c.numSyms * (u.length + 1) := by
      simp [T, Finset.card_product]
    rw [Finset.sum_range_succ]
    generalize hDd : 2 + c.rules.length + 2 * (c.rules.length * (c.numSyms * (L + 1))) = D at *
    generalize hM : c.numSyms * (L + 1) = M at *
    have h1 : ∀ e ∈ Finset.range u.length, seenCost c.numSyms c.rules.length T e ≤
        c.numSyms + 2 * (c.rules.length * M) + c.rules.length + M * D := by
      intro e he
      have he := Finset.mem_range.1 he
      have a1 := hD (e + 1) (by omega) (by omega)
      have a2 := Nat.mul_le_mul_right D (hcard (e + 1) (by omega))
      have a3 := Nat.mul_le_mul_left c.rules.length (hcard e (by omega))
      unfold seenCost
      omega
    have h2 := Finset.sum_le_card_nsmul _ _ _ h1
    rw [Finset.card_range, Nat.nsmul_eq_mul] at h2
    have h3 : seenCost c.numSyms c.rules.length T u.length ≤
        c.numSyms + 2 * (c.rules.length * M) + c.rules.length + c.numSyms * (u.length + 1) * D := by
      have a1 := hD (u.length + 1) (by omega) (by omega)
      have a3 := Nat.mul_le_mul_left c.rules.length (hcard u.length (by omega))
      rw [hlastc] at a1
      unfold seenCost
      omega
    unfold lookCost
    rw [hM, hDd]
    have h4 : c.numSyms * (u.length + 1) * D = c.numSyms * D * (u.length + 1) := by ring
    generalize c.numSyms + 2 * (c.rules.length * M) + c.rules.length = X at *
    nlinarith [Nat.zero_le (M * D), Nat.zero_le (c.numSyms * D * u.length)]
  rw [parseSteps_length] at hcost
  -- `parse` is the session
  obtain ⟨s0, s, res, h0, hparse, _⟩ := parse_cases (E := E.counting) hB hleo (counting_safe hF 0) hi ht hlen
  rw [h0, pure_bind] at hr
  refine ⟨s, res, by rw [h0, pure_bind]; exact hparse, ?_⟩
  obtain ⟨m, hm, hml, _, _, _⟩ := sessionCount_of_session _ _ hr
  rw [← hR.sof] at hm
  obtain ⟨p1, p2, p3⟩ := parse_spec (E := E.counting) hi hm
  have hsr : s = r.1 := by
    rw [parseSteps_length] at hml
    by_cases h1 : m = u.length + 1
    · have := p1 h1
      rw [hparse] at this
      obtain ⟨b, _, h3⟩ := bind_eq_pure this.symm
      have := pure_inj_M h3
      simp only [Prod.mk.injEq] at this
      exact this.1.symm
    · by_cases h2 : m = 0
      · have := p2 h2
        rw [hparse] at this
        have := pure_inj_M this
        simp only [Prod.mk.injEq] at this
        exact this.1
      · obtain ⟨t, _, h3⟩ := p3 (m - 1) (by omega) (by omega)
        rw [hparse] at h3
        have := pure_inj_M h3
        simp only [Prod.mk.injEq] at this
        exact this.1
  rw [hsr]
  exact hcost.trans (Nat.mul_le_mul_left _ hsum)

/-- C53 for grammars in which only the end marker follows symbols of unbounded length: `parse` takes linear time. -/
theorem C53_parse (hB : Built c n w E.g) (hleo : E.leo = false) (hla : E.lookahead = true) (ho : UnaryOrdered (rulesOf c))
    (hF : SafeStart E.F f c.rules.length c.numSyms) {L : Nat}
    (hL : LongLast (rulesOf c) n w.root w.eof L E.g.followHas) {toks u : List Nat} (hi : Internals E.g toks u)
    (ht : Terminals c n u) (hne : w.eof ∉ u) (hlen : u.length + 1 < 2 ^ 64 - 1) :
    ∃ s res, (Rec.new E.counting (f, 0) >>= fun s => Rec.parse E.counting s toks) = pure (s, res) ∧
      s.forest.2 ≤ lookCost c.numSyms c.rules.length L * (u.length + 1) := by
  obtain ⟨s, res, h1, h2⟩ := parse_bounded hB hleo hla hF hL hi ht (P := 1) (.inl ⟨rfl, .inl ho⟩) hne hlen
  exact ⟨s, res, h1, by simpa using h2⟩

/-- Every rule of two symbols begins with a symbol of bounded length, except that the end marker may come after anything in a rule
of the start symbol. -/
structure RightLinear (R : Rules) (start eof L : Nat) : Prop where
  pos : 1 ≤ L
  first : ∀ r ∈ R, ∀ C, r.rhs1 = some C → Short R L r.rhs0 ∨ (r.lhs = start ∧ C = eof)

/-- The FOLLOW sets contain nothing else than what can follow. -/
def FollowExact (R : Rules) (start : Nat) (sets : List (Nat × List Nat)) : Prop :=
  ∀ p ∈ sets, ∀ t ∈ p.2, ∃ α β, Derives R start (α ++ p.1 :: t :: β)

theorem RightLinear.follows {R : Rules} {start eof L : Nat} (h : RightLinear R start eof L) (he : Terminal R eof) {X : Nat}
    {u : List Nat} (hd : Derives R X u) : ∀ α A t β, u = α ++ A :: t :: β → Short R L A ∨ t = eof := by
  induction hd with
  | refl X => intro α A t β hu; have := congrArg List.length hu; simp at this; omega
  | unary _ _ _ ih => exact ih
  | @binary r C u v hr h1 hu hv ih1 ih2 =>
    intro α A t β huv
    rcases List.append_eq_append_iff.1 huv with ⟨a', h2, h3⟩ | ⟨c', h2, h3⟩
    · exact ih2 a' A t β h3
    · cases c' with
      | nil => exact ih2 [] A t β (by simpa using h3.symm)
      | cons x c' =>
        obtain ⟨hx, h4⟩ := List.cons.inj h3
        clear h3
        subst hx
        cases c' with
        | nil =>
          rcases h.first r hr C h1 with hs | ⟨_, rfl⟩
          · left
            intro y hy
            have := hs _ (Derives.subst hy hu α [] h2)
            simp at this
            omega
          · right
            have h3 : v = t :: β := by simpa using h4.symm
            generalize hC : C = C' at hv
            cases hv with
            | refl => simp at h3; exact h3.1.symm
            | unary hr' _ _ => exact absurd hC.symm (he _ hr')
            | binary hr' _ _ _ => exact absurd hC.symm (he _ hr')
        | cons y c'' =>
          obtain ⟨hy, _⟩ := List.cons.inj h4
          subst hy
          exact ih1 α A t c'' h2

theorem RightLinear.longLast {L : Nat} {maps nulling first follow} (h : RightLinear (rulesOf c) w.root w.eof L)
    (hB : Built c n w E.g) (hb : fromProcessed c maps nulling first follow = pure E.g)
    (hex : FollowExact (rulesOf c) w.root follow) : LongLast (rulesOf c) n w.root w.eof L E.g.followHas := by
  obtain ⟨depth, hc⟩ := hB.processed
  obtain ⟨root, rank, g0, hR⟩ := hB.ready
  have heof : Terminal (rulesOf c) w.eof := by
    intro r hr
    obtain ⟨cr, hcr, rfl⟩ := List.mem_map.1 hr
    exact hc.eofTerm cr hcr
  refine ⟨h.pos, ?_, ?_⟩
  · intro r hr hn _
    by_cases hs : Short (rulesOf c) L r.lhs
    · exact .inl hs
    refine .inr fun x hxn hx => ?_
    obtain ⟨row, h1, _, h3⟩ := (C25_lookahead_rows hc hb).2.2 r.lhs hn
    obtain ⟨p, hp, h4, h5⟩ := (h3 x hxn).1 (by
      unfold DefaultGrammar.followHas at hx
      unfold DefaultGrammar.lhsLrSet BitMatrix.row at h1
      cases hrow : E.g.lrSets.rows[r.lhs * 2 + 1]? with
      | none => rw [hrow] at hx; simp at hx
      | some row' =>
        rw [hrow] at hx
        obtain ⟨i1, i2⟩ := List.getElem?_eq_some_iff.1 hrow
        rw [indexM_lt i1, pure_inj_M_iff, i2] at h1
        rw [← h1]
        simpa using hx)
    obtain ⟨α, β, hd⟩ := hex p hp x h5
    rw [h4] at hd
    exact (h.follows heof hd α r.lhs x β rfl).resolve_left hs
  · intro A hA
    by_cases hs : Short (rulesOf c) L A
    · exact .inl hs
    refine .inr fun r hr => ⟨fun h1 => ?_, fun h0 => ?_⟩
    · have := hR.ok.rhs1_lt r hr A h1
      rw [hR.syms] at this
      omega
    · have hAn : A < c.numSyms := by
        have := hR.ok.rhs0_lt r hr
        rw [hR.all, h0] at this
        exact this
      obtain ⟨-, h2, -, -⟩ := (hc.gen A hAn).2 hA
      obtain ⟨r0, hr0, h3⟩ := List.countP_pos_iff.1 (by rw [h2]; omega)
      simp only [decide_eq_true_eq] at h3
      obtain ⟨h4, -, h5⟩ := h3
      obtain ⟨lhs0, rhs, o0, d0⟩ := r0
      obtain ⟨x, y, rfl⟩ := List.length_eq_two.1 h4
      simp only [List.getElem?_cons_zero, Option.some.injEq] at h5
      subst h5
      obtain ⟨cr, hcr, rfl⟩ := List.mem_map.1 hr
      have hlhs : cr.lhs = lhs0 := by
        refine hc.genLhs cr hcr _ hr0 ?_ ?_
        · have := hc.len cr hcr
          cases hrhs : cr.rhs with
          | nil => rw [hrhs] at this; simp at this
          | cons z l =>
            simp only [ruleOf, hrhs, List.headD_cons] at h0
            simp [h0]
        · intro z hz
          have := hc.len cr hcr
          cases hrhs : cr.rhs with
          | nil => rw [hrhs] at this; simp at this
          | cons z' l =>
            simp only [ruleOf, hrhs, List.headD_cons] at h0
            rw [hrhs] at hz
            simp at hz
            omega
      show cr.lhs = w.root
      rw [hlhs]
      exact ((h.first _ (List.mem_map_of_mem hr0) y rfl).resolve_left hs).1

/-- C53 for right-linear grammars with exact FOLLOW sets. -/
theorem C53_right_linear {maps nulling first follow} (hB : Built c n w E.g)
    (hb : fromProcessed c maps nulling first follow = pure E.g) (hex : FollowExact (rulesOf c) w.root follow)
    (hleo : E.leo = false) (hla : E.lookahead = true) (ho : UnaryOrdered (rulesOf c))
    (hF : SafeStart E.F f c.rules.length c.numSyms) {L : Nat} (hL : RightLinear (rulesOf c) w.root w.eof L)
    {toks u : List Nat} (hi : Internals E.g toks u) (ht : Terminals c n u) (hne : w.eof ∉ u)
    (hlen : u.length + 1 < 2 ^ 64 - 1) :
    ∃ s res, (Rec.new E.counting (f, 0) >>= fun s => Rec.parse E.counting s toks) = pure (s, res) ∧
      s.forest.2 ≤ lookCost c.numSyms c.rules.length L * (u.length + 1) :=
  C53_parse hB hleo hla ho hF (hL.longLast hB hb hex) hi ht hne hlen

theorem Short.of_terminal {R : Rules} {L X : Nat} (hL : 1 ≤ L) (h : Terminal R X) : Short R L X := by
  intro v hv
  generalize hX : X = Y at hv
  cases hv with
  | refl => exact hL
  | unary hr _ _ => exact absurd hX.symm (h _ hr)
  | binary hr _ _ _ => exact absurd hX.symm (h _ hr)

section
open Gearley.Example

theorem right_linear : RightLinear (rulesOf Right.cfg) 2 0 1 := by
  have h : ∀ r ∈ rulesOf Right.cfg, ∀ C, r.rhs1 = some C → Terminal (rulesOf Right.cfg) r.rhs0 ∨ (r.lhs = 2 ∧ C = 0) := by
    unfold Terminal; decide
  exact ⟨by omega, fun r hr C hC => (h r hr C hC).imp (Short.of_terminal (by omega)) id⟩

theorem right_follow : FollowExact (rulesOf Right.cfg) 2 Right.follow := by
  have hS1 : Derives (rulesOf Right.cfg) 3 [4] := .unary (r := ⟨3, 4, none⟩) (by decide) rfl (.refl 4)
  have hS2 : Derives (rulesOf Right.cfg) 3 [4, 4] := .binary (r := ⟨3, 4, some 3⟩) (by decide) rfl (.refl 4) hS1
  have hg : ∀ {u}, Derives (rulesOf Right.cfg) 3 u → Derives (rulesOf Right.cfg) 2 (([1] ++ u) ++ [0]) := fun h =>
    .binary (r := ⟨2, 5, some 0⟩) (by decide) rfl (.binary (r := ⟨5, 1, some 3⟩) (by decide) rfl (.refl 1) h) (.refl 0)
  intro p hp t ht
  simp only [Right.follow, List.mem_cons, List.not_mem_nil, or_false] at hp
  rcases hp with rfl | rfl | rfl | rfl | rfl
  · simp at ht; subst ht; exact ⟨[1], [], hg (.refl 3)⟩
  · simp at ht
    rcases ht with rfl | rfl
    · exact ⟨[1], [], hg hS1⟩
    · exact ⟨[1], [0], hg hS2⟩
  · simp at ht; subst ht
    exact ⟨[], [], .binary (r := ⟨2, 5, some 0⟩) (u := [5]) (v := [0]) (by decide) rfl (.refl 5) (.refl 0)⟩
  · simp at ht
  · simp at ht; subst ht; exact ⟨[], [0], hg hS1⟩

/-- C53 for right recursion: with look-ahead, `parse` reads a list of `k` elements with the grammar `S ::= a S | a` in at most
`1942 * (k + 1)` operations, for every forest. Without look-ahead it takes at least `k * (k + 1)` (C49). -/
theorem C53_right_recursion (hg : E.g = Right.grammar) (hleo : E.leo = false) (hla : E.lookahead = true)
    (hF : SafeStart E.F f Right.cfg.rules.length Right.cfg.numSyms) (k : Nat) (hk : k + 1 < 2 ^ 64 - 1) :
    ∃ s res, (Rec.new E.counting (f, 0) >>= fun s => Rec.parse E.counting s (List.replicate k 4)) = pure (s, res) ∧
      s.forest.2 ≤ 1942 * (k + 1) := by
  have hB : Built Right.cfg 5 Right.wrap E.g := hg ▸ Right.built
  have hint : ∀ x, E.g.toInternal x = pure (some x) := by
    intro x
    unfold DefaultGrammar.toInternal Build.toInternal
    have : E.g.symMaps.toInternal = [] := by rw [hg]; decide +kernel
    rw [if_pos this]
  have hi : Internals E.g (List.replicate k 4) (List.replicate k 4) := by
    unfold Internals
    rw [List.forall₂_same]
    exact fun x _ => hint x
  have := C53_right_linear (toks := List.replicate k 4) (u := List.replicate k 4) hB (hg ▸ Right.grammar_eq) right_follow hleo hla
    (by unfold UnaryOrdered; decide) hF right_linear hi (by
      intro t ht
      obtain ⟨_, rfl⟩ := List.mem_replicate.1 ht
      exact ⟨by omega, by unfold Terminal; decide⟩) (by
      intro h
      have := (List.mem_replicate.1 h).2
      cases this) (by simpa using hk)
  rw [List.length_replicate] at this
  exact this

-- the hypotheses are met
example {b : Simple.Bocage} (hb : Simple.Bocage.new Right.grammar.forestInfo = pure b) (k : Nat) (hk : k + 1 < 2 ^ 64 - 1) :
    ∃ s res, (Rec.new (Env.counting { g := Right.grammar, F := Simple.forest, sorter := sorter }) (b, 0) >>= fun s =>
        Rec.parse (Env.counting { g := Right.grammar, F := Simple.forest, sorter := sorter }) s (List.replicate k 4)) =
          pure (s, res) ∧ s.forest.2 ≤ 1942 * (k + 1) :=
  C53_right_recursion rfl rfl rfl ((C02_forests _ _).2.1 _ _ hb) k hk

end

end Gearley.Props
