import Verif.Proofs.Many
import Verif.Props.Cost
import Verif.Props.Order
import Verif.Props.Size

/-!
# C43, C47, C50, C53, C54: bounds in whatever order the symbols are numbered
-/

namespace Gearley
open Gearley.Spec
variable {σ ν : Type}

namespace Props
variable {c : Cfg} {n : Nat} {w : WrappedRoot} {E : Env σ ν} {f : σ}

theorem position_arith_many {N R L k P : Nat} (hL : 1 ≤ L) (hk : L ≤ k + 1) (hP : 1 ≤ P) :
    (N + 2 * (P * (R * L)) + R) + P * (L * (2 * N + 2 * (P * (R * L)) + R)) ≤
      ((3 * N + 6 * R) * P ^ 2) * (k + 1) ^ 2 := by
  have hPL : P * L ≤ P ^ 2 * L ^ 2 := by
    rw [← Nat.mul_pow, Nat.pow_two]; exact Nat.le_mul_of_pos_left _ (by positivity)
  have h1L : 1 ≤ P ^ 2 * L ^ 2 := Nat.succ_le_of_lt (by positivity)
  have h1 : (N + 2 * (P * (R * L)) + R) + P * (L * (2 * N + 2 * (P * (R * L)) + R)) ≤
      ((3 * N + 6 * R) * P ^ 2) * L ^ 2 := by
    nlinarith [Nat.mul_le_mul_left N hPL, Nat.mul_le_mul_left R hPL, Nat.mul_le_mul_left N h1L, Nat.mul_le_mul_left R h1L]
  exact h1.trans (Nat.mul_le_mul_left _ (Nat.pow_le_pow_left hk 2))

/-- C43. Cubic time and quadratic memory in whatever order the symbols are numbered. Let `P` be a bound on the number of chains
of one-symbol rules that begin with a symbol. For `k` positions with distinct terminals, there are at most
`(3 * symbols + 6 * rules) * P ^ 2 * k ^ 3` calls to operations of the forest, and the chart has at most
`P * rules * (k + 1) ^ 2` items. -/
theorem C43_chains (hB : Built c n w E.g) (hleo : E.leo = false) {p : Nat → Nat} {P : Nat}
    (hp : ChainBound (rulesOf c) p) (hP : ∀ A, p A ≤ P)
    (hF : SafeStart E.F f c.rules.length c.numSyms) {steps : List Step} (htok : TokensOK c.numSyms steps)
    (hin : HintsIn n steps) (hlen : steps.length + 1 < 2 ^ 64)
    (hterm : ∀ st ∈ steps, (st.2.map (·.1)).Nodup ∧ Terminals c n (st.2.map (·.1))) :
    ∃ r, (Rec.new E.counting (f, 0) >>= Rec.session E.counting steps) = pure r ∧
      r.1.forest.2 ≤ ((3 * c.numSyms + 6 * c.rules.length) * P ^ 2) * steps.length ^ 3 ∧
      (r.2 = true → r.1.medial.itemCount ≤ P * c.rules.length * (steps.length + 1) ^ 2) := by
  obtain ⟨root, rank, g0, hR⟩ := hB.ready
  have hRl : (rulesOf c).length = c.rules.length := by simp [rulesOf]
  obtain ⟨okDot, okLeaf, SF, w0, hI, hd, hl⟩ := counting_safe hF 0
  have hd' := hR.dots hd
  have hleo' : E.counting.leo = false := hleo
  have henv : FSim.env E.g E.lookahead false E.sorter E.counting.F = E.counting := by
    simp only [FSim.env, Env.counting, hleo]
  have hPpos : 1 ≤ P := (le_trans (Nat.le_add_right _ _) (hp 0)).trans (hP 0)
  -- the state after any session
  have key : ∀ steps : List Step, TokensOK c.numSyms steps → HintsIn n steps → steps.length + 1 < 2 ^ 64 →
      (∀ st ∈ steps, (st.2.map (·.1)).Nodup ∧ Terminals c n (st.2.map (·.1))) →
      ∃ r, (Rec.new E.counting (f, 0) >>= Rec.session E.counting steps) = pure r ∧ (r.2 = true →
        ∃ t S, ManyAt E.g (rulesOf c) p t steps.length S ∧ ∃ w, SF.sim.RIdle w r.1 t) := by
    intro steps htok hin hlen hterm
    have := sim_run (la := E.lookahead) (so := E.sorter) SF.sim hd' (f0 := []) (w := w0) hI
      (fun st hst p hp => hl p.1 p.2 (htok st hst p hp).1 (htok st hst p hp).2)
      (new_many (la := E.lookahead) (sorter := E.sorter) hR.ok hR.ranked hp (by omega) (stepsOK_of hR htok hin)
        (fun st hst => ⟨(hterm st hst).1, fun t ht => ((hterm st hst).2 t.1 (List.mem_map_of_mem ht)).2⟩) [])
    rw [show FSim.env E.g E.lookahead false E.sorter (counting E.F) = E.counting from henv] at this
    obtain ⟨r, h, r0, w', hq, hrel, hr0⟩ := this
    refine ⟨r, h, fun ht => ?_⟩
    obtain ⟨S, hS⟩ := hq (hr0 ▸ ht)
    exact ⟨r0.1, S, hS, w', hrel⟩
  have small : ∀ {t : TRec} {e : Nat} {S : List (List TItem)}, ManyAt E.g (rulesOf c) p t e S →
      ∀ l ∈ S, l.length ≤ P * (c.rules.length * S.length) := by
    intro t e S hm l hl
    rw [← hRl]
    refine set_length_many (fun x => ?_) (fun it hit => ?_) fun it hit => ?_
    · by_cases hx : x ∈ l.map dotOrigin
      · obtain ⟨it, hit, rfl⟩ := List.mem_map.1 hx
        obtain ⟨A, B, C, h⟩ := hm.rest.binary l hl it hit
        exact (hm.many l hl _ _ B (by simp [rhs0Of, h])).trans (hP B)
      · rw [List.count_eq_zero.2 hx]; omega
    · obtain ⟨A, B, C, h⟩ := hm.rest.binary l hl it hit
      exact ⟨_, h⟩
    · obtain ⟨i, hi, rfl⟩ := List.getElem_of_mem hl
      exact (hm.rest.origin i _ (List.getElem?_eq_getElem hi) it hit).trans hi
  obtain ⟨r, hr, hrest⟩ := key steps htok hin hlen hterm
  refine ⟨r, hr, ?_, ?_⟩
  swap
  · intro ht
    obtain ⟨t, S, h0, w', h4⟩ := hrest ht
    have h1 := h0.rest
    have h2 := h0.len
    have e1 : r.1.medial.itemCount = S.flatten.length := by
      have := h4.medial.2.length_eq
      rw [h1.medial] at this
      exact this
    rw [e1]
    refine (flatten_length_le (small h0)).trans ?_
    have : S.length * (P * (c.rules.length * S.length)) = P * c.rules.length * S.length ^ 2 := by ring
    rw [this]
    exact Nat.mul_le_mul_left _ (Nat.pow_le_pow_left h2 2)
  · clear hrest
    induction steps using List.reverseRecOn generalizing r with
    | nil =>
      obtain ⟨s0, h0, h1⟩ := bind_eq_pure hr
      have h1 := pure_inj_M h1
      unfold Rec.new at h0
      obtain ⟨p, _, h0⟩ := bind_eq_pure h0
      rw [← h1, ← pure_inj_M h0]
      simp
    | append_singleton pre st ih =>
      have hsub : ∀ x ∈ pre, x ∈ pre ++ [st] := fun x h => List.mem_append_left _ h
      simp only [List.length_append, List.length_singleton] at hlen ⊢
      have hp1 : TokensOK c.numSyms pre := fun x h => htok x (hsub x h)
      have hp2 : HintsIn n pre := fun x h => hin x (hsub x h)
      have hp3 := fun x h => hterm x (hsub x h)
      obtain ⟨r1, hr1, hrest1⟩ := key pre hp1 hp2 (by omega) hp3
      have hi := ih hp1 hp2 (by omega) hp3 r1 hr1
      obtain ⟨s0, h0, hr⟩ := bind_eq_pure hr
      rw [h0, pure_bind] at hr1
      obtain ⟨op, toks⟩ := st
      rw [Rec.session_snoc, hr1, pure_bind] at hr
      have hstep := cube_step pre.length
      obtain ⟨s1, ok⟩ := r1
      cases ok with
      | false =>
        simp only [Bool.false_eq_true, if_false] at hr
        rw [← pure_inj_M hr]
        exact hi.trans (Nat.mul_le_mul_left _ (by omega))
      | true =>
        simp only [if_true] at hr
        obtain ⟨t, S, hm0, w', h4⟩ := hrest1 rfl
        have h1 := hm0.rest
        have h2 := hm0.len
        have hpos := h1.pos
        have hstop : ∀ x, op = .set x → x < E.g.syms := by
          intro x hx
          rw [hR.syms]
          exact hin (op, toks) (by simp) x hx
        have htoks : ∀ p ∈ toks, p.1 < c.numSyms := fun p hp => (htok (op, toks) (by simp) p hp).1
        have h1' := rest_hint h1 hstop
        have h4' : (laxSim E.counting.F treeForest).RIdle () (Rec.applyHint s1 op) (Rec.applyHint t op) :=
          FSim.applyHint_rel (ridle_lax h4) op
        have hcost1 : (Rec.applyHint s1 op).cost = s1.forest.2 := by
          have := h4.complete.length_eq
          rw [h1.empty] at this
          cases op <;> simp [Rec.applyHint, Rec.cost, Rec.setHint, Rec.clearHint] <;> simpa using this
        unfold Rec.position Rec.positionWith at hr
        obtain ⟨s2, h5, hr⟩ := bind_eq_pure hr
        have hsc := scanAll_cost hleo rfl hR.ok h1' (by omega) h4' (by rw [hR.all]; exact htoks) h5
        have hK : ∀ o, o < S.length → (S[o]?.getD []).length ≤ P * (c.rules.length * S.length) := by
          intro o ho
          rw [List.getElem?_eq_getElem ho]
          exact small hm0 _ (List.getElem_mem ho)
        have hsc2 := sum_tokenCost_le (rulesOf c) S (o := S.length - 1) (N := c.numSyms) (l := toks.map (·.1))
          (hterm (op, toks) (by simp)).1 (by simpa using fun a b h => htoks (a, b) h) (hK _ (by omega))
        have harith := position_arith_many (N := c.numSyms) (R := c.rules.length) hpos h2 hPpos
        have hfin : r.1.forest.2 ≤ s1.forest.2 + ((c.numSyms + 2 * (P * (c.rules.length * S.length)) + c.rules.length) +
            P * (S.length * (2 * c.numSyms + 2 * (P * (c.rules.length * S.length)) + c.rules.length))) := by
          unfold Rec.endEarlemeWith at hr
          obtain ⟨b, _, hr⟩ := bind_eq_pure hr
          rw [hRl] at hsc2
          cases b with
          | true =>
            simp only [if_true] at hr
            rw [← pure_inj_M hr]
            have : s2.forest.2 ≤ s2.cost := Nat.le_add_right _ _
            show s2.forest.2 ≤ _
            omega
          | false =>
            simp only [Bool.false_eq_true, if_false] at hr
            obtain ⟨s3, h6, hr⟩ := bind_eq_pure hr
            obtain ⟨s4, h7, hr⟩ := bind_eq_pure hr
            rw [← pure_inj_M hr]
            obtain ⟨l, s5, h8, rfl⟩ := groups_of_completeAll h6
            have hc := h1'.ok hR.ok (la := E.lookahead) (sorter := E.sorter)
            obtain ⟨t1, ht1, scans, cur, hmid⟩ := mid_of_rest hR.ok (la := E.lookahead) (sorter := E.sorter) h1'
              (by omega) toks (by rw [hR.all]; exact htoks)
            have hdT : DotsOK E.g fun _ => True :=
              ⟨fun _ _ _ _ _ => trivial, fun _ _ _ _ _ => trivial, fun _ _ _ _ _ => trivial⟩
            have h5' : Rec.scanAll (FSim.env E.g E.lookahead false E.sorter E.counting.F)
                (Rec.applyHint s1 op).beginEarleme toks = pure s2 := by rw [henv]; exact h5
            obtain ⟨_, _, hrel2⟩ := (FSim.scanAll_rel (S := laxSim E.counting.F treeForest) (g := E.g)
              (la := E.lookahead) (leo := false) (so := E.sorter) hdT (FSim.begin_rel h4') (toks := toks)
              (fun _ _ => trivial)).both h5' ht1
            obtain ⟨hb, hgc⟩ := groups_cost hleo h8
              (c := ctxOf E.g (rulesOf c) root E.lookahead E.sorter (Rec.applyHint t op) S) rfl rfl rfl hc hmid hrel2
            have h8' := h8
            rw [← henv] at h8'
            obtain ⟨t3, hgt⟩ := groups_lax h8'
              (c := ctxOf E.g (rulesOf c) root E.lookahead E.sorter (Rec.applyHint t op) S) rfl rfl rfl hc hmid hrel2
            obtain ⟨M, hM⟩ := chain_rank_bound (rulesOf c) rank
            have hcnt : ∀ x, l.count x ≤ P := fun x => ((EC.groups_count hc hR.ranked hM hgt hmid x.1 x.2).trans
              (climb_le hp (comesUp_le _ _ _) _ _)).trans (hP _)
            have hded := sum_le_dedup hcnt (groupCost (rulesOf c) S)
            have hsum := sum_groupCost_le (rulesOf c) S (L := S.length) (N := c.numSyms) l.nodup_dedup
              (fun p hp => by
                have hp := List.mem_dedup.1 hp
                exact ⟨(hb p hp).1, by rw [← hR.all]; exact (hb p hp).2⟩) hK
            rw [hRl] at hsum
            have hsum := hded.trans (Nat.mul_le_mul_left P hsum)
            have e1 := (Rec.advance_keeps h7).1
            have e2 : s4.forest.2 ≤ s5.cost := by rw [e1]; exact Nat.le_add_right _ _
            show s4.forest.2 ≤ _
            have hgc : s5.cost ≤ s2.cost + (l.map (groupCost (rulesOf c) S)).sum := hgc
            omega
        have hi : s1.forest.2 ≤ ((3 * c.numSyms + 6 * c.rules.length) * P ^ 2) * pre.length ^ 3 := hi
        calc r.1.forest.2 ≤ ((3 * c.numSyms + 6 * c.rules.length) * P ^ 2) * pre.length ^ 3 +
              ((3 * c.numSyms + 6 * c.rules.length) * P ^ 2) * (pre.length + 1) ^ 2 := by omega
          _ = ((3 * c.numSyms + 6 * c.rules.length) * P ^ 2) * (pre.length ^ 3 + (pre.length + 1) ^ 2) := by ring
          _ ≤ _ := Nat.mul_le_mul_left _ hstep

/-- Number of one-symbol rules. -/
def unaryCount (R : Rules) : Nat := R.countP fun r => r.rhs1.isNone

/-- C43. Cubic time and quadratic memory for every grammar without cycles, in whatever order the symbols are numbered. The bounds
of `C43_cubic` hold with factors that depend on the number `u` of one-symbol rules only: `4 ^ u` for the time and `2 ^ u` for
the memory. (By C47 no factor polynomial in the size of the grammar will do.) -/
theorem C43_any (hB : Built c n w E.g) (hleo : E.leo = false)
    (hF : SafeStart E.F f c.rules.length c.numSyms) {steps : List Step} (htok : TokensOK c.numSyms steps)
    (hin : HintsIn n steps) (hlen : steps.length + 1 < 2 ^ 64)
    (hterm : ∀ st ∈ steps, (st.2.map (·.1)).Nodup ∧ Terminals c n (st.2.map (·.1))) :
    ∃ r, (Rec.new E.counting (f, 0) >>= Rec.session E.counting steps) = pure r ∧
      r.1.forest.2 ≤ (3 * c.numSyms + 6 * c.rules.length) * 4 ^ unaryCount (rulesOf c) * steps.length ^ 3 ∧
      (r.2 = true → r.1.medial.itemCount ≤ 2 ^ unaryCount (rulesOf c) * c.rules.length * (steps.length + 1) ^ 2) := by
  obtain ⟨root, rank, g0, hR⟩ := hB.ready
  obtain ⟨p, hp, hP⟩ := chainBound_pow hR.ranked
  have := C43_chains hB hleo hp hP hF htok hin hlen hterm
  rwa [← Nat.pow_mul, Nat.mul_comm _ 2, Nat.pow_mul] at this

/-- C47. The other side of `C47_climb`: after any session, and whatever terminals are read next, the completion pass goes
through a group `(o, A)` at most once for every chain of one-symbol rules that begins with `A`. -/
theorem C47_chains (hB : Built c n w E.g) (hleo : E.leo = false) (hF : SafeStart E.F f c.rules.length c.numSyms)
    {p : Nat → Nat} (hp : ChainBound (rulesOf c) p) {steps : List Step} (htok : TokensOK c.numSyms steps)
    (hin : HintsIn n steps) (hlen : steps.length + 1 < 2 ^ 64) {op : Rec.HintOp} (hop : ∀ x, op = .set x → x < n)
    {toks : List (Nat × Nat)} (ht : ∀ t ∈ toks, t.1 < c.numSyms ∧ t.2 < 2 ^ 32) :
    ∃ r, (Rec.new E f >>= Rec.session E steps) = pure r ∧ (r.2 = true →
      ∃ s1 l s2, Rec.scanAll E (Rec.applyHint r.1 op).beginEarleme toks = pure s1 ∧
        Rec.completeAll E s1 = pure s2.clearHint ∧ Rec.Groups E s1 l s2 ∧ ∀ o A, l.count (o, A) ≤ p A) := by
  obtain ⟨root, rank, g0, hR⟩ := hB.ready
  obtain ⟨okDot, okLeaf, SF, w0, hI, hd, hl⟩ := hF
  have hd' := hR.dots hd
  have := sim_run (la := E.lookahead) (so := E.sorter) SF.sim hd' (f0 := []) (w := w0) hI
    (fun st hst p hp => hl p.1 p.2 (htok st hst p hp).1 (htok st hst p hp).2)
    (new_rest (la := E.lookahead) (sorter := E.sorter) hR.ok hR.ranked (by omega) (stepsOK_of hR htok hin) [])
  rw [env_eta hleo] at this
  obtain ⟨r, h, r0, w', hq, hrel, hr0⟩ := this
  refine ⟨r, h, fun htr => ?_⟩
  obtain ⟨S, hrest, hSl, -⟩ := hq (hr0 ▸ htr)
  have hrest' := rest_hint hrest (op := op) (by rw [hR.syms]; exact hop)
  have hrel' : (SF.sim).RIdle w' (Rec.applyHint r.1 op).beginEarleme (Rec.applyHint r0.1 op).beginEarleme :=
    FSim.begin_rel (FSim.applyHint_rel hrel op)
  have hc := hrest'.ok hR.ok (la := E.lookahead) (sorter := E.sorter)
  obtain ⟨t1, ht1, scans, cur, hmid⟩ := mid_of_rest hR.ok (la := E.lookahead) (sorter := E.sorter) hrest' (by omega) toks
    (fun t h => by rw [hR.all]; exact (ht t h).1)
  obtain ⟨s1, hs1, w1, _, hrel1⟩ := (FSim.scanAll_rel (g := E.g) (la := E.lookahead) (leo := false) (so := E.sorter) hd'
    hrel' (toks := toks) (fun t h => hl t.1 t.2 (ht t h).1 (ht t h).2)).returns ht1
  obtain ⟨t2, ht2, _⟩ := (EC.completeAll_spec' hc hmid (fun _ _ => True) (.inr (hR.ranked.settles _)) trivial
    (EC.keeps_true _ toks).step).returns
  obtain ⟨s2, hs2, _⟩ := (FSim.completeAll_rel (g := E.g) (la := E.lookahead) (leo := false) (so := E.sorter) hd'
    hrel1).returns ht2
  rw [env_eta hleo] at hs1 hs2
  obtain ⟨l, s3, hg3, rfl⟩ := groups_of_completeAll hs2
  have hg3' := hg3
  rw [← env_eta hleo] at hg3'
  obtain ⟨t3, hgt⟩ := groups_lax hg3' (c := ctxOf E.g (rulesOf c) root E.lookahead E.sorter (Rec.applyHint r0.1 op) S)
    rfl rfl rfl hc hmid (ridle_lax hrel1)
  obtain ⟨M, hM⟩ := chain_rank_bound (rulesOf c) rank
  exact ⟨s1, l, s3, hs1, hs2, hg3, fun o A => (EC.groups_count hc hR.ranked hM hgt hmid o A).trans
    (climb_le hp (comesUp_le _ _ _) _ _)⟩

/-! ### Linear time -/

theorem bounded_any (hB : Built c n w E.g) (start : Nat) (W : Input) :
    Bounded (rulesOf c) start W (2 ^ unaryCount (rulesOf c)) := by
  obtain ⟨root, rank, g0, hR⟩ := hB.ready
  exact .inr (chainBound_pow hR.ranked)

theorem four_pow (u : Nat) : (2 ^ u) ^ 2 = 4 ^ u := by rw [← Nat.pow_mul, Nat.mul_comm, Nat.pow_mul]

theorem seen_tree {first follow : Nat → Nat → Prop} {syms : Nat} {R : Rules} {inp : Input} {hint : Nat → Option Nat}
    {b A a : Nat} (h : Seen first follow syms R inp hint b A a) : ∃ t, TreeOf R inp t A a b := by
  induction h with
  | token h => exact ⟨_, .leaf h⟩
  | unary hr _ _ ih =>
    obtain ⟨t, ht⟩ := ih
    obtain ⟨d, hd⟩ := List.mem_iff_getElem?.1 hr
    exact ⟨_, .unary hd ht⟩
  | binary hr _ _ _ _ ih1 ih2 =>
    obtain ⟨t1, h1⟩ := ih1
    obtain ⟨t2, h2⟩ := ih2
    obtain ⟨d, hd⟩ := List.mem_iff_getElem?.1 hr
    exact ⟨_, .binary hd h1 h2⟩

/-- C50 for every grammar without cycles, in whatever order the symbols are numbered: on input where at most `K` pairs of a symbol
and a starting position end at each position, the recognizer takes linear time. -/
theorem C50_any (hB : Built c n w E.g) (hleo : E.leo = false)
    (hF : SafeStart E.F f c.rules.length c.numSyms) {steps : List Step} (htok : TokensOK c.numSyms steps)
    (hin : HintsIn n steps) (hlen : steps.length + 1 < 2 ^ 64)
    (hterm : ∀ st ∈ steps, (st.2.map (·.1)).Nodup ∧ Terminals c n (st.2.map (·.1)))
    {K : Nat} (hun : BoundedEnds (rulesOf c) w.root (inputOf steps) K) :
    ∃ r, (Rec.new E.counting (f, 0) >>= Rec.session E.counting steps) = pure r ∧
      r.1.forest.2 ≤ 4 ^ unaryCount (rulesOf c) * (linearCost c.numSyms c.rules.length K * steps.length) := by
  choose T hT1 hT2 using hun
  obtain ⟨r, h1, h2⟩ := work_bounded hB hleo hF htok hin hlen hterm (bounded_any hB _ _) (T := T)
    fun b A a hp hs => by
      obtain ⟨t, ht⟩ := seen_tree hs
      exact hT2 b A a t hp ht
  refine ⟨r, h1, ?_⟩
  rw [four_pow] at h2
  refine h2.trans (Nat.mul_le_mul_left _ ?_)
  rw [Nat.mul_comm (linearCost _ _ _), ← Nat.nsmul_eq_mul]
  have := Finset.sum_le_card_nsmul (Finset.range steps.length) (seenCost c.numSyms c.rules.length T)
    (linearCost c.numSyms c.rules.length K) fun e _ => ?_
  · rwa [Finset.card_range] at this
  · have hc : ∀ b, c.rules.length * (T b).card ≤ c.rules.length * K := fun b => Nat.mul_le_mul_left _ (hT1 b)
    have hs : ∑ q ∈ T (e + 1), (2 + c.rules.length + 2 * (c.rules.length * (T q.2).card)) ≤
        K * (2 + 2 * (c.rules.length * K) + c.rules.length) := by
      refine (Finset.sum_le_card_nsmul _ _ (2 + 2 * (c.rules.length * K) + c.rules.length) fun q _ => ?_).trans ?_
      · have := hc q.2; omega
      · rw [Nat.nsmul_eq_mul]; exact Nat.mul_le_mul_right _ (hT1 _)
    have := hc e
    unfold seenCost linearCost
    omega

/-- C50 for left-linear grammars, in whatever order the symbols are numbered. -/
theorem C50_left_linear_any (hB : Built c n w E.g) (hleo : E.leo = false)
    (hF : SafeStart E.F f c.rules.length c.numSyms) (hl : LeftLinear (rulesOf c) w.root) {steps : List Step}
    (htok : TokensOK c.numSyms steps) (hin : HintsIn n steps) (hlen : steps.length + 1 < 2 ^ 64)
    (hterm : ∀ st ∈ steps, (st.2.map (·.1)).Nodup ∧ Terminals c n (st.2.map (·.1))) :
    ∃ r, (Rec.new E.counting (f, 0) >>= Rec.session E.counting steps) = pure r ∧
      r.1.forest.2 ≤ 4 ^ unaryCount (rulesOf c) * (linearCost c.numSyms c.rules.length (3 * c.numSyms) * steps.length) := by
  refine C50_any hB hleo hF htok hin hlen hterm (hl.ends ?_ ?_)
  · obtain ⟨depth, hP⟩ := hB.processed
    intro r hr
    obtain ⟨cr, hcr, rfl⟩ := List.mem_map.1 hr
    exact hP.lhs_lt cr hcr
  · intro i p hp
    unfold inputOf at hp
    cases hst : steps[i]? with
    | none => rw [hst] at hp; cases hp
    | some st => rw [hst] at hp; exact (htok st (List.mem_of_getElem? hst) p hp).1

/-- C53 for right-linear grammars with exact FOLLOW sets, in whatever order the symbols are numbered. -/
theorem C53_right_linear_any {maps nulling first follow} (hB : Built c n w E.g)
    (hb : fromProcessed c maps nulling first follow = pure E.g) (hex : FollowExact (rulesOf c) w.root follow)
    (hleo : E.leo = false) (hla : E.lookahead = true)
    (hF : SafeStart E.F f c.rules.length c.numSyms) {L : Nat} (hL : RightLinear (rulesOf c) w.root w.eof L)
    {toks u : List Nat} (hi : Internals E.g toks u) (ht : Terminals c n u) (hne : w.eof ∉ u)
    (hlen : u.length + 1 < 2 ^ 64 - 1) :
    ∃ s res, (Rec.new E.counting (f, 0) >>= fun s => Rec.parse E.counting s toks) = pure (s, res) ∧
      s.forest.2 ≤ 4 ^ unaryCount (rulesOf c) * (lookCost c.numSyms c.rules.length L * (u.length + 1)) := by
  rw [← four_pow]
  exact parse_bounded hB hleo hla hF (hL.longLast hB hb hex) hi ht (bounded_any hB _ _) hne hlen

/-! ### The size of the forest -/

variable {m : σ → Nat} {K : Nat}

/-- C54. The forest is of cubic size in the length of the input for every grammar without cycles, in whatever order the symbols are
numbered. -/
theorem C54_any (hB : Built c n w E.g) (hleo : E.leo = false) (hF : SafeStart E.F f c.rules.length c.numSyms)
    (hg : Grows E.F m K) {steps : List Step}
    (htok : TokensOK c.numSyms steps) (hin : HintsIn n steps) (hlen : steps.length + 1 < 2 ^ 64)
    (hterm : ∀ st ∈ steps, (st.2.map (·.1)).Nodup ∧ Terminals c n (st.2.map (·.1))) :
    ∃ r, (Rec.new E f >>= Rec.session E steps) = pure r ∧
      m r.1.forest ≤ m f + K * ((3 * c.numSyms + 6 * c.rules.length) * 4 ^ unaryCount (rulesOf c) * steps.length ^ 3) := by
  obtain ⟨r, h1, h2, -⟩ := C43_any hB hleo hF htok hin hlen hterm
  exact size_of_counted hg ⟨r, h1, h2⟩

/-- C54. The forest is of linear size for left-linear grammars, in whatever order the symbols are numbered. -/
theorem C54_left_linear_any (hB : Built c n w E.g) (hleo : E.leo = false)
    (hF : SafeStart E.F f c.rules.length c.numSyms) (hg : Grows E.F m K) (hl : LeftLinear (rulesOf c) w.root)
    {steps : List Step} (htok : TokensOK c.numSyms steps) (hin : HintsIn n steps) (hlen : steps.length + 1 < 2 ^ 64)
    (hterm : ∀ st ∈ steps, (st.2.map (·.1)).Nodup ∧ Terminals c n (st.2.map (·.1))) :
    ∃ r, (Rec.new E f >>= Rec.session E steps) = pure r ∧ m r.1.forest ≤ m f + K *
      (4 ^ unaryCount (rulesOf c) * (linearCost c.numSyms c.rules.length (3 * c.numSyms) * steps.length)) :=
  size_of_counted hg (C50_left_linear_any hB hleo hF hl htok hin hlen hterm)

/-- C54. With look-ahead and exact FOLLOW sets, `parse` builds a forest of linear size for right-linear grammars, in whatever order
the symbols are numbered. -/
theorem C54_right_linear_any {maps nulling first follow} (hB : Built c n w E.g)
    (hb : fromProcessed c maps nulling first follow = pure E.g) (hex : FollowExact (rulesOf c) w.root follow)
    (hleo : E.leo = false) (hla : E.lookahead = true)
    (hF : SafeStart E.F f c.rules.length c.numSyms) (hg : Grows E.F m K) {L : Nat}
    (hL : RightLinear (rulesOf c) w.root w.eof L) {toks u : List Nat} (hi : Internals E.g toks u) (ht : Terminals c n u)
    (hne : w.eof ∉ u) (hlen : u.length + 1 < 2 ^ 64 - 1) :
    ∃ s res, (Rec.new E f >>= fun s => Rec.parse E s toks) = pure (s, res) ∧
      m s.forest ≤ m f + K * (4 ^ unaryCount (rulesOf c) * (lookCost c.numSyms c.rules.length L * (u.length + 1))) := by
  obtain ⟨s, res, h1, h2⟩ := C53_right_linear_any hB hb hex hleo hla hF hL hi ht hne hlen
  obtain ⟨⟨s', res'⟩, h3, -, h4⟩ := (parse_counted hg E rfl f 0 toks).returns_left h1
  exact ⟨s', res', h3, (h4 rfl).trans (Nat.add_le_add_left (Nat.mul_le_mul_left _ h2) _)⟩

/-- C54 and C13, C14 together, in whatever order the symbols are numbered. If
`size + (3 * symbols + 6 * rules) * 4 ^ u * k ^ 3 < 2 ^ 32`, where `k` is the length of the input, `size` is the size of the new
bocage, and `u` is the number of one-symbol rules, then no handle overflows: the finished node stands for exactly the parse
trees. -/
theorem C54_any_trees_simple {E : Env Simple.Bocage Nat} {b : Simple.Bocage} (hB : Built c n w E.g) (hleo : E.leo = false)
    (hF : E.F = Simple.forest) (hb : Simple.Bocage.new E.g.forestInfo = pure b)
    {steps : List Step} (htok : TokensOK c.numSyms steps) (hin : HintsIn n steps) (hne : steps ≠ [])
    (hlen : steps.length < 2 ^ 64 - 1)
    (hh : E.lookahead = true → Honest (fun t => t < n ∧ Terminal (rulesOf c) t) w.eof steps)
    (hterm : ∀ st ∈ steps, (st.2.map (·.1)).Nodup ∧ Terminals c n (st.2.map (·.1)))
    (hroot : RootRules c w)
    (hsize : b.graph.length + (3 * c.numSyms + 6 * c.rules.length) * 4 ^ unaryCount (rulesOf c) * steps.length ^ 3 < 2 ^ 32) :
    ∃ g0 r, ⟨w.root, g0, some w.eof⟩ ∈ rulesOf c ∧ (Rec.new E b >>= Rec.session E steps) = pure r ∧
      (r.2 = false → ¬ Accepts (rulesOf c) g0 steps) ∧
      (r.2 = true → ∃ N, Rec.finishedNode E r.1 = pure N ∧ (N.isSome ↔ Accepts (rulesOf c) g0 steps) ∧
        ∀ x, N = some x → ∃ ts, Simple.Den r.1.forest.graph x ts ∧ ts.Nodup ∧
          ∀ t, t ∈ ts ↔ TreeOf (rulesOf c) (inputOf steps) t g0 0 steps.length) := by
  have hs := (C02_forests c.rules.length c.numSyms).2.1 _ _ hb
  rw [← hF] at hs
  have hc : b.summandCount = 0 := by
    unfold Simple.Bocage.new at hb
    obtain ⟨g, _, hb⟩ := bind_eq_pure hb
    rw [← pure_inj_M hb]
  obtain ⟨r', h1, h2⟩ := C54_any (m := fun b : Simple.Bocage => b.graph.length) hB hleo hs (hF ▸ C54_forests.1) htok hin
    (by omega) hterm
  obtain ⟨g0, r, h3, h4, h5, h6⟩ := C13_C14_simple hB hleo hF hc htok hin hne hlen hh
  refine ⟨g0, r, h3, h4, h5, fun ht => ?_⟩
  obtain ⟨N, h7, h8, h9⟩ := h6 ht
  have : r' = r := by rw [h4] at h1; exact (pure_inj_M h1).symm
  subst this
  refine ⟨N, h7, h8, fun x hx => ?_⟩
  obtain ⟨ts, ha, hb, hc⟩ := h9 x hx (by omega)
  obtain ⟨hd, he⟩ := hc (plain_of_terms hterm) hroot
  exact ⟨ts, ha, hd, fun t => ⟨hb t, he t⟩⟩

/-- C54 and C13, C14 together, for the compact bocage. -/
theorem C54_any_trees_compact {E : Env Compact.Bocage Nat} {b : Compact.Bocage} (hB : Built c n w E.g) (hleo : E.leo = false)
    (hF : E.F = Compact.forest) (hb : Compact.Bocage.new E.g.forestInfo = pure b)
    (hr32 : c.rules.length ≤ 2 ^ 32) (hs32 : c.numSyms ≤ 2 ^ 32)
    {steps : List Step} (htok : TokensOK c.numSyms steps) (hin : HintsIn n steps) (hne : steps ≠ [])
    (hlen : steps.length < 2 ^ 64 - 1)
    (hh : E.lookahead = true → Honest (fun t => t < n ∧ Terminal (rulesOf c) t) w.eof steps)
    (hterm : ∀ st ∈ steps, (st.2.map (·.1)).Nodup ∧ Terminals c n (st.2.map (·.1)))
    (hroot : RootRules c w)
    (hsize : b.graph.length + 9 * ((3 * c.numSyms + 6 * c.rules.length) * 4 ^ unaryCount (rulesOf c) * steps.length ^ 3) < 2 ^ 32) :
    ∃ g0 r, ⟨w.root, g0, some w.eof⟩ ∈ rulesOf c ∧ (Rec.new E b >>= Rec.session E steps) = pure r ∧
      (r.2 = false → ¬ Accepts (rulesOf c) g0 steps) ∧
      (r.2 = true → ∃ N, Rec.finishedNode E r.1 = pure N ∧ (N.isSome ↔ Accepts (rulesOf c) g0 steps) ∧
        ∀ x, N = some x → ∃ ts, Compact.Den r.1.forest.graph x ts ∧ ts.Nodup ∧
          ∀ t, t ∈ ts ↔ TreeOf (rulesOf c) (inputOf steps) t g0 0 steps.length) := by
  have hs := (C02_forests c.rules.length c.numSyms).2.2 b
  rw [← hF] at hs
  have hc : b.sumStart = none := by
    unfold Compact.Bocage.new at hb
    obtain ⟨g, _, hb⟩ := bind_eq_pure hb
    obtain ⟨g', _, hb⟩ := bind_eq_pure hb
    rw [← pure_inj_M hb]
  obtain ⟨r', h1, h2⟩ := C54_any (m := fun b : Compact.Bocage => b.graph.length) hB hleo hs (hF ▸ C54_forests.2) htok hin
    (by omega) hterm
  obtain ⟨g0, r, h3, h4, h5, h6⟩ := C13_C14_compact hB hleo hF hc hr32 hs32 htok hin hne hlen hh
  refine ⟨g0, r, h3, h4, h5, fun ht => ?_⟩
  obtain ⟨N, h7, h8, h9⟩ := h6 ht
  have : r' = r := by rw [h4] at h1; exact (pure_inj_M h1).symm
  subst this
  refine ⟨N, h7, h8, fun x hx => ?_⟩
  obtain ⟨ts, ha, hb, hc⟩ := h9 x hx (by omega)
  obtain ⟨hd, he⟩ := hc (plain_of_terms hterm) hroot
  exact ⟨ts, ha, hd, fun t => ⟨hb t, he t⟩⟩

/-! ### Examples -/

-- the ladders of C47 meet the hypotheses, and their symbols are not in order
example : ¬ UnaryOrdered (rulesOf (ladder 1)) := by unfold UnaryOrdered; decide

example (k : Nat) (hB : Built (ladder k) (5 + k) (ladderRoot k) E.g) (hleo : E.leo = false)
    (hF : SafeStart E.F f (ladder k).rules.length (ladder k).numSyms) :
    ∃ r, (Rec.new E.counting (f, 0) >>= Rec.session E.counting [(.keep, [(1, 0)]), (.keep, [(2, 0)])]) = pure r ∧
      r.1.forest.2 ≤ (3 * (ladder k).numSyms + 6 * (ladder k).rules.length) * 4 ^ unaryCount (rulesOf (ladder k)) * 2 ^ 3 ∧
      (r.2 = true → r.1.medial.itemCount ≤
        2 ^ unaryCount (rulesOf (ladder k)) * (ladder k).rules.length * (2 + 1) ^ 2) := by
  refine C43_any hB hleo hF ?_ ?_ (by decide) ?_
  · intro st hst q hq
    simp only [List.mem_cons, List.not_mem_nil, or_false] at hst
    rcases hst with rfl | rfl <;> simp at hq <;> subst hq <;> simp [ladder] <;> omega
  · intro st hst x hx
    simp only [List.mem_cons, List.not_mem_nil, or_false] at hst
    rcases hst with rfl | rfl <;> simp at hx
  · intro st hst
    simp only [List.mem_cons, List.not_mem_nil, or_false] at hst
    rcases hst with rfl | rfl
    all_goals
      refine ⟨by simp, ?_⟩
      intro t ht
      simp at ht
      subst ht
      refine ⟨by omega, ladder_rules (by simp) (by simp) (by simp; omega) (by simp; omega)⟩

-- the ladders are left-linear
theorem ladder_leftLinear (k : Nat) : LeftLinear (rulesOf (ladder k)) 3 where
  notStart := ladder_rules (by simp; omega) (by simp) (by simp; omega) (by simp; omega)
  second := by
    refine ladder_rules ?_ (by simp) (by simp) ?_
    · intro C hC
      obtain rfl : 0 = C := by simpa using hC
      exact .inl (ladder_rules (by simp) (by simp) (by simp) (by simp))
    · intro C hC
      refine .inr ⟨ladder_rules (by simp) (by simp) (by simp; omega) (by simp; omega), ?_⟩
      refine ladder_rules (by simp; omega) (by simp; omega) ?_ (by simp; omega)
      intro j i hj hi
      simp; omega

-- a ladder of two steps, with the number of chains that begin with each symbol
example : ChainBound (rulesOf (ladder 2)) fun A => if A = 4 then 2 else if A = 5 then 3 else if A = 6 then 6 else 1 := by
  intro A
  by_cases h4 : A = 4
  · subst h4; decide
  by_cases h5 : A = 5
  · subst h5; decide
  by_cases h6 : A = 6
  · subst h6; decide
  have : unaryRules (rulesOf (ladder 2)) A = [] := by
    rw [List.eq_nil_iff_forall_not_mem]
    intro r hr
    obtain ⟨h1, h2, h3⟩ := mem_unaryRules.1 hr
    revert h1 h2 h3
    exact fun h1 => ladder_rules (P := fun r => r.lhs = A → r.rhs1 = none → False) (by simp) (by simp; omega) (by
      intro j i hj hi; simp; omega) (by simp) r h1
  simp [this, h4, h5, h6]

end Props
end Gearley
