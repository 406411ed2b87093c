import Mathlib.Tactic.Ring
import Mathlib.Tactic.Linarith
import Verif.Proofs.CostBound
import Verif.Proofs.SortFree
import Verif.Props.Forest
import Verif.Props.Determinism

/-!
# C43: bounds on time and memory
-/

namespace Gearley
open Gearley.Spec
variable {σ ν : Type}

namespace Rec

theorem advance_keeps {E : Env σ ν} {s s' : Rec σ ν} (h : advanceAfterCompletion E s = pure s') :
    s'.forest = s.forest ∧ s'.complete = s.complete := by
  unfold advanceAfterCompletion at h
  obtain ⟨s1, h1, h⟩ := bind_eq_pure h
  obtain ⟨s2, h2, h⟩ := bind_eq_pure h
  have e1 : s1.forest = s.forest ∧ s1.complete = s.complete := by
    unfold sortMedial at h1
    obtain ⟨m, _, h1⟩ := bind_eq_pure h1
    rw [← pure_inj_M h1]; exact ⟨rfl, rfl⟩
  have e2 : s2.forest = s1.forest ∧ s2.complete = s1.complete := by
    unfold removeUnreachable at h2
    obtain ⟨l, _, h2⟩ := bind_eq_pure h2
    dsimp only at h2
    split at h2
    all_goals
      split at h2
      · obtain ⟨m, _, h2⟩ := bind_eq_pure h2
        obtain ⟨_, _, h2⟩ := bind_eq_pure h2
        obtain ⟨_, _, h2⟩ := bind_eq_pure h2
        rw [← pure_inj_M h2]; exact ⟨rfl, rfl⟩
      · rw [← pure_inj_M h2]; exact ⟨rfl, rfl⟩
  split at h
  · exact absurd h panicM_ne_pure
  · unfold predictionPass at h
    obtain ⟨l, _, h⟩ := bind_eq_pure h
    obtain ⟨i, _, h⟩ := bind_eq_pure h
    obtain ⟨r, _, h⟩ := bind_eq_pure h
    obtain ⟨r', _, h⟩ := bind_eq_pure h
    rw [← pure_inj_M h]
    exact ⟨e2.1.trans e1.1, e2.2.trans e1.2⟩

end Rec

theorem flatten_length_le {α : Type} {S : List (List α)} {K : Nat} (h : ∀ l ∈ S, l.length ≤ K) :
    S.flatten.length ≤ S.length * K := by
  induction S with
  | nil => simp
  | cons l S ih =>
    have h1 := h l (by simp)
    have h2 := ih fun x hx => h x (by simp [hx])
    simp only [List.flatten_cons, List.length_append, List.length_cons, Nat.succ_mul]
    omega

namespace Props
variable {c : Cfg} {n : Nat} {w : WrappedRoot} {E : Env σ ν} {f : σ}

theorem cube_step (n : Nat) : n ^ 3 + (n + 1) ^ 2 ≤ (n + 1) ^ 3 := by
  have : (n + 1) ^ 3 = n ^ 3 + 3 * n ^ 2 + 3 * n + 1 := by ring
  have : (n + 1) ^ 2 = n ^ 2 + 2 * n + 1 := by ring
  omega

theorem position_arith {N R L k : Nat} (hL : 1 ≤ L) (hk : L ≤ k + 1) :
    (N + 2 * (R * L) + R) + L * (2 * N + 2 * (R * L) + R) ≤ (3 * N + 6 * R) * (k + 1) ^ 2 := by
  have h1 : (N + 2 * (R * L) + R) + L * (2 * N + 2 * (R * L) + R) ≤ (3 * N + 6 * R) * L ^ 2 := by
    nlinarith [Nat.mul_le_mul_left N hL, Nat.mul_le_mul_left R hL, Nat.mul_le_mul_left (N * L) hL,
      Nat.mul_le_mul_left (R * L) hL]
  exact h1.trans (Nat.mul_le_mul_left _ (Nat.pow_le_pow_left hk 2))

/-- C43. The recognizer takes cubic time and its chart quadratic memory. Take any forest that does not panic, and count the
calls to its operations: one for every queued item taken from the queue, and for every product, sum and leaf. For `k`
positions with distinct terminals, these are at most `(3 * symbols + 6 * rules) * k ^ 3`. After a session that got through,
the chart has at most `rules * (k + 1) ^ 2` items. -/
theorem C43_cubic (hB : Built c n w E.g) (hleo : E.leo = false) (ho : UnaryOrdered (rulesOf c))
    (hF : SafeStart E.F f c.rules.length c.numSyms) {steps : List Step} (htok : TokensOK c.numSyms steps)
    (hin : HintsIn n steps) (hlen : steps.length + 1 < 2 ^ 64)
    (hterm : ∀ st ∈ steps, (st.2.map (·.1)).Nodup ∧ Terminals c n (st.2.map (·.1))) :
    ∃ r, (Rec.new E.counting (f, 0) >>= Rec.session E.counting steps) = pure r ∧
      r.1.forest.2 ≤ (3 * c.numSyms + 6 * c.rules.length) * steps.length ^ 3 ∧
      (r.2 = true → r.1.medial.itemCount ≤ c.rules.length * (steps.length + 1) ^ 2) := by
  obtain ⟨root, rank, g0, hR⟩ := hB.ready
  have hRl : (rulesOf c).length = c.rules.length := by simp [rulesOf]
  obtain ⟨okDot, okLeaf, SF, w0, hI, hd, hl⟩ := counting_safe hF 0
  have hd' := hR.dots hd
  have hleo' : E.counting.leo = false := hleo
  have henv : FSim.env E.g E.lookahead false E.sorter E.counting.F = E.counting := by
    simp only [FSim.env, Env.counting, hleo]
  -- the state after any session
  have key : ∀ steps : List Step, TokensOK c.numSyms steps → HintsIn n steps → steps.length + 1 < 2 ^ 64 →
      (∀ st ∈ steps, (st.2.map (·.1)).Nodup ∧ Terminals c n (st.2.map (·.1))) →
      ∃ r, (Rec.new E.counting (f, 0) >>= Rec.session E.counting steps) = pure r ∧ (r.2 = true →
        ∃ t S, Rest E.g (rulesOf c) t S ∧ S.length ≤ steps.length + 1 ∧
          (∀ l ∈ S, (l.map dotOrigin).Nodup) ∧ ∃ w, SF.sim.RIdle w r.1 t) := by
    intro steps htok hin hlen hterm
    have := sim_run (la := E.lookahead) (so := E.sorter) SF.sim hd' (f0 := []) (w := w0) hI
      (fun st hst p hp => hl p.1 p.2 (htok st hst p hp).1 (htok st hst p hp).2)
      (new_rest (la := E.lookahead) (sorter := E.sorter) hR.ok hR.ranked (by omega) (stepsOK_of hR htok hin) [])
    rw [show FSim.env E.g E.lookahead false E.sorter (counting E.F) = E.counting from henv] at this
    obtain ⟨r, h, r0, w', hq, hrel, hr0⟩ := this
    refine ⟨r, h, fun ht => ?_⟩
    obtain ⟨S, hrest, hSl, _, hnd⟩ := hq (hr0 ▸ ht)
    refine ⟨r0.1, S, hrest, hSl, hnd ?_ ho, w', hrel⟩
    intro i
    unfold inputOf
    cases hst : steps[i]? with
    | none => simp
    | some st =>
      have := hterm st (List.mem_of_getElem? hst)
      exact ⟨this.1, fun t ht => (this.2 t.1 (List.mem_map_of_mem ht)).2⟩
  have small : ∀ {t : TRec} {S : List (List TItem)}, Rest E.g (rulesOf c) t S → (∀ l ∈ S, (l.map dotOrigin).Nodup) →
      ∀ l ∈ S, l.length ≤ c.rules.length * S.length := by
    intro t S hrest hnd l hl
    rw [← hRl]
    refine set_length_le (hnd l hl) (fun it hit => ?_) fun it hit => ?_
    · obtain ⟨A, B, C, h⟩ := hrest.binary l hl it hit
      exact ⟨_, h⟩
    · obtain ⟨i, hi, rfl⟩ := List.getElem_of_mem hl
      exact (hrest.origin i _ (List.getElem?_eq_getElem hi) it hit).trans hi
  obtain ⟨r, hr, hrest⟩ := key steps htok hin hlen hterm
  refine ⟨r, hr, ?_, ?_⟩
  swap
  · intro ht
    obtain ⟨t, S, h1, h2, h3, w', h4⟩ := hrest ht
    have e1 : r.1.medial.itemCount = S.flatten.length := by
      have := h4.medial.2.length_eq
      rw [h1.medial] at this
      exact this
    rw [e1]
    refine (flatten_length_le (small h1 h3)).trans ?_
    have : S.length * (c.rules.length * S.length) = c.rules.length * S.length ^ 2 := by ring
    rw [this]
    exact Nat.mul_le_mul_left _ (Nat.pow_le_pow_left h2 2)
  · clear hrest
    induction steps using List.reverseRecOn generalizing r with
    | nil =>
      obtain ⟨s0, h0, h1⟩ := bind_eq_pure hr
      have h1 := pure_inj_M h1
      unfold Rec.new at h0
      obtain ⟨p, _, h0⟩ := bind_eq_pure h0
      rw [← h1, ← pure_inj_M h0]
      simp
    | append_singleton pre st ih =>
      have hsub : ∀ x ∈ pre, x ∈ pre ++ [st] := fun x h => List.mem_append_left _ h
      simp only [List.length_append, List.length_singleton] at hlen ⊢
      have hp1 : TokensOK c.numSyms pre := fun x h => htok x (hsub x h)
      have hp2 : HintsIn n pre := fun x h => hin x (hsub x h)
      have hp3 := fun x h => hterm x (hsub x h)
      obtain ⟨r1, hr1, hrest1⟩ := key pre hp1 hp2 (by omega) hp3
      have hi := ih hp1 hp2 (by omega) hp3 r1 hr1
      obtain ⟨s0, h0, hr⟩ := bind_eq_pure hr
      rw [h0, pure_bind] at hr1
      obtain ⟨op, toks⟩ := st
      rw [Rec.session_snoc, hr1, pure_bind] at hr
      have hstep := cube_step pre.length
      obtain ⟨s1, ok⟩ := r1
      cases ok with
      | false =>
        simp only [Bool.false_eq_true, if_false] at hr
        rw [← pure_inj_M hr]
        exact hi.trans (Nat.mul_le_mul_left _ (by omega))
      | true =>
        simp only [if_true] at hr
        obtain ⟨t, S, h1, h2, h3, w', h4⟩ := hrest1 rfl
        have hpos := h1.pos
        have hstop : ∀ x, op = .set x → x < E.g.syms := by
          intro x hx
          rw [hR.syms]
          exact hin (op, toks) (by simp) x hx
        have htoks : ∀ p ∈ toks, p.1 < c.numSyms := fun p hp => (htok (op, toks) (by simp) p hp).1
        have h1' := rest_hint h1 hstop
        have h4' : (laxSim E.counting.F treeForest).RIdle () (Rec.applyHint s1 op) (Rec.applyHint t op) :=
          FSim.applyHint_rel (ridle_lax h4) op
        have hcost1 : (Rec.applyHint s1 op).cost = s1.forest.2 := by
          have := h4.complete.length_eq
          rw [h1.empty] at this
          cases op <;> simp [Rec.applyHint, Rec.cost, Rec.setHint, Rec.clearHint] <;> simpa using this
        unfold Rec.position Rec.positionWith at hr
        obtain ⟨s2, h5, hr⟩ := bind_eq_pure hr
        have hsc := scanAll_cost hleo rfl hR.ok h1' (by omega) h4' (by rw [hR.all]; exact htoks) h5
        have hK : ∀ o, o < S.length → (S[o]?.getD []).length ≤ c.rules.length * S.length := by
          intro o ho
          rw [List.getElem?_eq_getElem ho]
          exact small h1 h3 _ (List.getElem_mem ho)
        have hsc2 := sum_tokenCost_le (rulesOf c) S (o := S.length - 1) (N := c.numSyms) (l := toks.map (·.1))
          (hterm (op, toks) (by simp)).1 (by simpa using fun a b h => htoks (a, b) h) (hK _ (by omega))
        have harith := position_arith (N := c.numSyms) (R := c.rules.length) hpos h2
        have hfin : r.1.forest.2 ≤ s1.forest.2 + ((c.numSyms + 2 * (c.rules.length * S.length) + c.rules.length) +
            S.length * (2 * c.numSyms + 2 * (c.rules.length * S.length) + c.rules.length)) := by
          unfold Rec.endEarlemeWith at hr
          obtain ⟨b, _, hr⟩ := bind_eq_pure hr
          rw [hRl] at hsc2
          cases b with
          | true =>
            simp only [if_true] at hr
            rw [← pure_inj_M hr]
            have : s2.forest.2 ≤ s2.cost := Nat.le_add_right _ _
            show s2.forest.2 ≤ _
            omega
          | false =>
            simp only [Bool.false_eq_true, if_false] at hr
            obtain ⟨s3, h6, hr⟩ := bind_eq_pure hr
            obtain ⟨s4, h7, hr⟩ := bind_eq_pure hr
            rw [← pure_inj_M hr]
            obtain ⟨l, s5, h8, rfl⟩ := groups_of_completeAll h6
            have hc := h1'.ok hR.ok (la := E.lookahead) (sorter := E.sorter)
            obtain ⟨t1, ht1, scans, cur, hmid⟩ := mid_of_rest hR.ok (la := E.lookahead) (sorter := E.sorter) h1'
              (by omega) toks (by rw [hR.all]; exact htoks)
            have hdT : DotsOK E.g fun _ => True :=
              ⟨fun _ _ _ _ _ => trivial, fun _ _ _ _ _ => trivial, fun _ _ _ _ _ => trivial⟩
            have h5' : Rec.scanAll (FSim.env E.g E.lookahead false E.sorter E.counting.F)
                (Rec.applyHint s1 op).beginEarleme toks = pure s2 := by rw [henv]; exact h5
            obtain ⟨_, _, hrel2⟩ := (FSim.scanAll_rel (S := laxSim E.counting.F treeForest) (g := E.g)
              (la := E.lookahead) (leo := false) (so := E.sorter) hdT (FSim.begin_rel h4') (toks := toks)
              (fun _ _ => trivial)).both h5' ht1
            obtain ⟨hb, hgc⟩ := groups_cost hleo h8
              (c := ctxOf E.g (rulesOf c) root E.lookahead E.sorter (Rec.applyHint t op) S) rfl rfl rfl hc hmid hrel2
            have h8' := h8
            rw [← henv] at h8'
            obtain ⟨t3, hgt⟩ := groups_lax h8'
              (c := ctxOf E.g (rulesOf c) root E.lookahead E.sorter (Rec.applyHint t op) S) rfl rfl rfl hc hmid hrel2
            have hdec := (EC.groups_decreasing hc ho hgt hmid).1
            have hnd : l.Nodup := hdec.imp fun {a b} hab heq => by subst heq; simp only [KeyLt] at hab; omega
            have hsum := sum_groupCost_le (rulesOf c) S (L := S.length) (N := c.numSyms) hnd
              (fun p hp => ⟨(hb p hp).1, by rw [← hR.all]; exact (hb p hp).2⟩) hK
            rw [hRl] at hsum
            have e1 := (Rec.advance_keeps h7).1
            have e2 : s4.forest.2 ≤ s5.cost := by rw [e1]; exact Nat.le_add_right _ _
            show s4.forest.2 ≤ _
            have hgc : s5.cost ≤ s2.cost + (l.map (groupCost (rulesOf c) S)).sum := hgc
            omega
        have hi : s1.forest.2 ≤ (3 * c.numSyms + 6 * c.rules.length) * pre.length ^ 3 := hi
        calc r.1.forest.2 ≤ (3 * c.numSyms + 6 * c.rules.length) * pre.length ^ 3 +
              (3 * c.numSyms + 6 * c.rules.length) * (pre.length + 1) ^ 2 := by omega
          _ = (3 * c.numSyms + 6 * c.rules.length) * (pre.length ^ 3 + (pre.length + 1) ^ 2) := by ring
          _ ≤ _ := Nat.mul_le_mul_left _ hstep

/-! ### Examples -/

section
open Gearley.Example

-- the hypotheses are met by a session of Examples/Sums.lean with a bocage
example {b : Simple.Bocage} (hb : Simple.Bocage.new grammar.forestInfo = pure b) :
    ∃ r, (Rec.new simpleEnv.counting (b, 0) >>= Rec.session simpleEnv.counting chartSteps) = pure r ∧
      r.1.forest.2 ≤ (3 * cfg.numSyms + 6 * cfg.rules.length) * 4 ^ 3 ∧
      (r.2 = true → r.1.medial.itemCount ≤ cfg.rules.length * (4 + 1) ^ 2) :=
  C43_cubic (c := cfg) (n := 6) (w := wrap) built rfl (by unfold UnaryOrdered; decide) ((C02_forests _ _).2.1 _ _ hb)
    (by unfold TokensOK; decide) chartSteps_hints (by decide) (by unfold Terminals Terminal; decide)

/-- Number of operations and of items, computed. -/
def countOps (steps : List Step) : M (Nat × Nat) := do
  let s ← Rec.new env.counting ((), 0)
  let (s, _) ← Rec.sessionWith env.counting (Rec.completeAllFuel env.counting 50) steps s
  pure (s.forest.2, s.medial.itemCount)

example : countOps chartSteps = pure (26, 5) := by decide +kernel

end

end Props
end Gearley
