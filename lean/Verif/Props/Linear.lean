import Verif.Proofs.Quadratic
import Verif.Props.Cost
import Verif.Examples.Left

/-!
# C50: linear time for left-linear grammars
-/

namespace Gearley.Props
open Gearley.Spec
variable {σ ν : Type} {c : Cfg} {n : Nat} {w : WrappedRoot} {E : Env σ ν} {f : σ}

/-- At each position, at most `K` pairs of a symbol and a starting position end, where the symbol can begin after what comes
before. -/
def BoundedEnds (R : Rules) (start : Nat) (inp : Input) (K : Nat) : Prop := ∀ b, ∃ T : Finset (Nat × Nat), T.card ≤ K ∧
  ∀ A a t, Pred R start inp a A → TreeOf R inp t A a b → (A, a) ∈ T

/-- Bound on the cost of a position. -/
def linearCost (syms rules K : Nat) : Nat := syms + 2 * (rules * K) + rules + K * (2 + 2 * (rules * K) + rules)

/-- C50. On input where at most `K` pairs of a symbol and a starting position end at each position, the recognizer takes linear
time, measured as in C43 by the calls to the operations of the forest. -/
theorem C50_linear (hB : Built c n w E.g) (hleo : E.leo = false) (ho : UnaryOrdered (rulesOf c))
    (hF : SafeStart E.F f c.rules.length c.numSyms) {steps : List Step} (htok : TokensOK c.numSyms steps)
    (hin : HintsIn n steps) (hlen : steps.length + 1 < 2 ^ 64)
    (hterm : ∀ st ∈ steps, (st.2.map (·.1)).Nodup ∧ Terminals c n (st.2.map (·.1)))
    {K : Nat} (hun : BoundedEnds (rulesOf c) w.root (inputOf steps) K) :
    ∃ r, (Rec.new E.counting (f, 0) >>= Rec.session E.counting steps) = pure r ∧
      r.1.forest.2 ≤ linearCost c.numSyms c.rules.length K * steps.length := by
  obtain ⟨root, rank, g0, hR⟩ := hB.ready
  have hRl : (rulesOf c).length = c.rules.length := by simp [rulesOf]
  obtain ⟨okDot, okLeaf, SF, w0, hI, hd, hl⟩ := counting_safe hF 0
  have hd' := hR.dots hd
  have henv : FSim.env E.g E.lookahead false E.sorter E.counting.F = E.counting := by
    simp only [FSim.env, Env.counting, hleo]
  generalize hW : inputOf steps = W at hun
  have htt : TermToks (rulesOf c) W := by
    intro i
    rw [← hW]
    unfold inputOf
    cases hst : steps[i]? with
    | none => simp
    | some st =>
      have := hterm st (List.mem_of_getElem? hst)
      exact ⟨this.1, fun t ht => (this.2 t.1 (List.mem_map_of_mem ht)).2⟩
  have hWin : StepsIn W 0 steps := by
    intro i st hst
    rw [← hW, Nat.zero_add, inputOf_eq hst]
  clear hW
  -- the state after a part of the session
  have key : ∀ steps : List Step, TokensOK c.numSyms steps → HintsIn n steps → steps.length + 1 < 2 ^ 64 →
      StepsIn W 0 steps →
      ∃ r, (Rec.new E.counting (f, 0) >>= Rec.session E.counting steps) = pure r ∧ (r.2 = true →
        ∃ t S loc, InvAt E.g (rulesOf c) W 0 False (Pred (rulesOf c) E.g.startSym W) (fun _ => False) t steps.length S loc ∧
          ∃ w, SF.sim.RIdle w r.1 t) := by
    intro steps htok hin hlen hWin
    have := sim_run (la := E.lookahead) (so := E.sorter) SF.sim hd' (f0 := []) (w := w0) hI
      (fun st hst p hp => hl p.1 p.2 (htok st hst p hp).1 (htok st hst p hp).2)
      (new_inv_at (la := E.lookahead) (sorter := E.sorter) hR.ok hR.ranked (by omega) (stepsOK_of hR htok hin) hWin [])
    rw [show FSim.env E.g E.lookahead false E.sorter (counting E.F) = E.counting from henv] at this
    obtain ⟨r, h, r0, w', hq, hrel, hr0⟩ := this
    refine ⟨r, h, fun ht => ?_⟩
    obtain ⟨S, loc, hinv⟩ := hq (hr0 ▸ ht)
    exact ⟨r0.1, S, loc, hinv, w', hrel⟩
  obtain ⟨r, hr, hrest⟩ := key steps htok hin hlen hWin
  refine ⟨r, hr, ?_⟩
  clear hrest
  induction steps using List.reverseRecOn generalizing r with
  | nil =>
    obtain ⟨s0, h0, h1⟩ := bind_eq_pure hr
    have h1 := pure_inj_M h1
    unfold Rec.new at h0
    obtain ⟨p, _, h0⟩ := bind_eq_pure h0
    rw [← h1, ← pure_inj_M h0]
    simp
  | append_singleton pre st ih =>
    have hsub : ∀ x ∈ pre, x ∈ pre ++ [st] := fun x h => List.mem_append_left _ h
    simp only [List.length_append, List.length_singleton] at hlen ⊢
    have hp1 : TokensOK c.numSyms pre := fun x h => htok x (hsub x h)
    have hp2 : HintsIn n pre := fun x h => hin x (hsub x h)
    have hp3 := fun x h => hterm x (hsub x h)
    have hp4 : StepsIn W 0 pre := fun i x hx => hWin i x (by
      rw [List.getElem?_append_left (List.getElem?_eq_some_iff.1 hx).1]; exact hx)
    obtain ⟨r1, hr1, hrest1⟩ := key pre hp1 hp2 (by omega) hp4
    have hi := ih hp1 hp2 (by omega) hp3 hp4 r1 hr1
    obtain ⟨s0, h0, hr⟩ := bind_eq_pure hr
    rw [h0, pure_bind] at hr1
    obtain ⟨op, toks⟩ := st
    rw [Rec.session_snoc, hr1, pure_bind] at hr
    obtain ⟨s1, ok⟩ := r1
    cases ok with
    | false =>
      simp only [Bool.false_eq_true, if_false] at hr
      rw [← pure_inj_M hr]
      exact hi.trans (Nat.mul_le_mul_left _ (by omega))
    | true =>
      simp only [if_true] at hr
      obtain ⟨t, S, loc, hinv, w', h4⟩ := hrest1 rfl
      have hpos := hinv.rest.pos
      have hSl := hinv.sound.length_le hpos
      have hWe : W pre.length = toks := by
        have := hWin pre.length (op, toks) (by simp)
        rwa [Nat.zero_add] at this
      have hstop : ∀ x, op = .set x → x < E.g.syms := by
        intro x hx
        rw [hR.syms]
        exact hin (op, toks) (by simp) x hx
      have htoks : ∀ p ∈ toks, p.1 < c.numSyms := fun p hp => (htok (op, toks) (by simp) p hp).1
      have hinv' := hinv.hint op hstop
      have h1' := hinv'.rest
      have h3 : ∀ l ∈ S, (l.map dotOrigin).Nodup := by
        intro l hl
        rw [List.nodup_iff_count_le_one]
        rintro ⟨d, o⟩
        by_cases hx : (d, o) ∈ l.map dotOrigin
        · obtain ⟨it, hit, he⟩ := List.mem_map.1 hx
          obtain ⟨A, B, C, hR⟩ := hinv.rest.binary l hl it hit
          simp only [dotOrigin, Prod.mk.injEq] at he
          refine hinv.ordered ho htt l hl d o ⟨B, ?_⟩
          simp [rhs0Of, ← he.1, hR]
        · rw [List.count_eq_zero.2 hx]; omega
      have h4' : (laxSim E.counting.F treeForest).RIdle () (Rec.applyHint s1 op) (Rec.applyHint t op) :=
        FSim.applyHint_rel (ridle_lax h4) op
      have hcost1 : (Rec.applyHint s1 op).cost = s1.forest.2 := by
        have := h4.complete.length_eq
        rw [hinv.rest.empty] at this
        cases op <;> simp [Rec.applyHint, Rec.cost, Rec.setHint, Rec.clearHint] <;> simpa using this
      unfold Rec.position Rec.positionWith at hr
      obtain ⟨s2, h5, hr⟩ := bind_eq_pure hr
      have hsc := scanAll_cost hleo rfl hR.ok h1' (by omega) h4' (by rw [hR.all]; exact htoks) h5
      have hsets := fun {k : Nat} {l : List TItem} (hl : S[k]? = some l) =>
        set_length_ends hinv'.sound h1'.node h3 (fun b => by rw [hR.start]; exact hun b) hl
      have hK : ∀ o : Nat, (S[o]?.getD []).length ≤ c.rules.length * K := by
        intro o
        cases hS : S[o]? with
        | none => simp
        | some l =>
          rw [← hRl]
          exact hsets hS
      have hsc2 := sum_tokenCost_le (rulesOf c) S (o := S.length - 1) (N := c.numSyms) (l := toks.map (·.1))
        (hterm (op, toks) (by simp)).1 (by simpa using fun a b h => htoks (a, b) h) (hK _)
      have hfin : r.1.forest.2 ≤ s1.forest.2 + linearCost c.numSyms c.rules.length K := by
        unfold linearCost
        unfold Rec.endEarlemeWith at hr
        obtain ⟨b, _, hr⟩ := bind_eq_pure hr
        rw [hRl] at hsc2
        cases b with
        | true =>
          simp only [if_true] at hr
          rw [← pure_inj_M hr]
          have : s2.forest.2 ≤ s2.cost := Nat.le_add_right _ _
          show s2.forest.2 ≤ _
          omega
        | false =>
          simp only [Bool.false_eq_true, if_false] at hr
          obtain ⟨s3, h6, hr⟩ := bind_eq_pure hr
          obtain ⟨s4, h7, hr⟩ := bind_eq_pure hr
          rw [← pure_inj_M hr]
          obtain ⟨l, s5, h8, rfl⟩ := groups_of_completeAll h6
          have hc := h1'.ok hR.ok (la := E.lookahead) (sorter := E.sorter)
          have hPred := pred_predOK (R := rulesOf c) E.g.startSym W
          obtain ⟨t1, ht1, scans, cur, hmid, hheap, _⟩ := mid_sound hR.ok (la := E.lookahead) (sorter := E.sorter) hPred h1'
            hinv'.sound (by omega) (by rw [hWe, hR.all]; exact htoks)
          rw [hWe] at ht1
          have hdT : DotsOK E.g fun _ => True :=
            ⟨fun _ _ _ _ _ => trivial, fun _ _ _ _ _ => trivial, fun _ _ _ _ _ => trivial⟩
          have h5' : Rec.scanAll (FSim.env E.g E.lookahead false E.sorter E.counting.F)
              (Rec.applyHint s1 op).beginEarleme toks = pure s2 := by rw [henv]; exact h5
          obtain ⟨_, _, hrel2⟩ := (FSim.scanAll_rel (S := laxSim E.counting.F treeForest) (g := E.g)
            (la := E.lookahead) (leo := false) (so := E.sorter) hdT (FSim.begin_rel h4') (toks := toks)
            (fun _ _ => trivial)).both h5' ht1
          obtain ⟨hb, hgc⟩ := groups_cost hleo h8
            (c := ctxOf E.g (rulesOf c) root E.lookahead E.sorter (Rec.applyHint t op) S) rfl rfl rfl hc hmid hrel2
          have h8' := h8
          rw [← henv] at h8'
          obtain ⟨t3, hgt⟩ := groups_lax h8'
            (c := ctxOf E.g (rulesOf c) root E.lookahead E.sorter (Rec.applyHint t op) S) rfl rfl rfl hc hmid hrel2
          have hdec := (EC.groups_decreasing hc ho hgt hmid).1
          have hnd : l.Nodup := hdec.imp fun {a b} hab heq => by subst heq; simp only [KeyLt] at hab; omega
          have hgs := groups_sound hR.ok hPred h1' hinv'.sound hgt hmid hheap
          have hnum := groups_ends (hR.start ▸ hun (pre.length + 1)) hinv'.sound.mono hnd hgs
          have hsum := sum_groupCost_const (R := rulesOf c) hnum fun p _ => hK p.1
          rw [hRl] at hsum
          have e1 := (Rec.advance_keeps h7).1
          have e2 : s4.forest.2 ≤ s5.cost := by rw [e1]; exact Nat.le_add_right _ _
          show s4.forest.2 ≤ _
          have hgc : s5.cost ≤ s2.cost + (l.map (groupCost (rulesOf c) S)).sum := hgc
          omega
      have hi : s1.forest.2 ≤ linearCost c.numSyms c.rules.length K * pre.length := hi
      rw [Nat.mul_add, Nat.mul_one]
      omega

/-! ### Left-linear grammars -/

/-- The second symbol of a rule has no rules. The one exception is the rule for the start marker, whose left-hand side only begins
rules of the start symbol. -/
structure LeftLinear (R : Rules) (start : Nat) : Prop where
  notStart : ∀ r ∈ R, r.rhs0 ≠ start ∧ r.rhs1 ≠ some start
  second : ∀ r ∈ R, ∀ C, r.rhs1 = some C → Terminal R C ∨
    (Terminal R r.rhs0 ∧ ∀ r' ∈ R, r'.rhs1 ≠ some r.lhs ∧ (r'.rhs0 = r.lhs → r'.lhs = start))

theorem LeftLinear.start_zero {R : Rules} {start : Nat} (h : LeftLinear R start) {inp : Input} {p A : Nat}
    (hp : Pred R start inp p A) (hA : A = start) : p = 0 := by
  cases hp with
  | start => rfl
  | corner _ hc => obtain ⟨r, hr, _, h2⟩ := hc; exact absurd (h2.trans hA) (h.notStart r hr).1
  | medial hr => exact absurd (congrArg some hA) (h.notStart _ (List.mem_of_getElem? hr)).2

theorem TreeOf.terminal {R : Rules} {inp : Input} {t : PTree} {A a b : Nat} (h : TreeOf R inp t A a b) (hA : Terminal R A) :
    b = a + 1 := by
  cases h with
  | leaf _ => rfl
  | unary hd _ => exact absurd rfl (hA _ (List.mem_of_getElem? hd))
  | binary hd _ _ => exact absurd rfl (hA _ (List.mem_of_getElem? hd))

/-- In a left-linear grammar, rules are only predicted at the start. -/
theorem LeftLinear.pred {R : Rules} {start : Nat} (h : LeftLinear R start) {inp : Input} {p A : Nat}
    (hp : Pred R start inp p A) : p ≤ 1 ∨ Terminal R A := by
  induction hp with
  | start => exact .inl (Nat.zero_le 1)
  | corner _ hc ih =>
    obtain ⟨r, hr, h1, _⟩ := hc
    exact .inl (ih.resolve_right fun h => h r hr h1)
  | @medial d A B C q p t hd hq ht _ =>
    rcases h.second _ (List.mem_of_getElem? hd) C rfl with h1 | ⟨h1, h2⟩
    · exact .inr h1
    · have hp := TreeOf.terminal ht h1
      have hq0 : q = 0 := by
        cases hq with
        | start => rfl
        | corner hq' hc =>
          obtain ⟨r, hr, h3, h4⟩ := hc
          exact h.start_zero hq' (h3.symm.trans ((h2 r hr).2 h4))
        | medial hr => exact absurd rfl (h2 _ (List.mem_of_getElem? hr)).1
      exact .inl (by omega)

theorem LeftLinear.ends {R : Rules} {start : Nat} (h : LeftLinear R start) {inp : Input} {N : Nat}
    (hR : ∀ r ∈ R, r.lhs < N) (hin : ∀ i, ∀ p ∈ inp i, p.1 < N) : BoundedEnds R start inp (3 * N) := by
  intro b
  refine ⟨Finset.range N ×ˢ {0, 1, b - 1}, ?_, ?_⟩
  · rw [Finset.card_product, Finset.card_range, Nat.mul_comm]
    exact Nat.mul_le_mul_right _ Finset.card_le_three
  · intro A a t hp ht
    have hA : A < N := by
      cases ht with
      | leaf hm => exact hin _ _ hm
      | unary hd _ => exact hR _ (List.mem_of_getElem? hd)
      | binary hd _ _ => exact hR _ (List.mem_of_getElem? hd)
    simp only [Finset.mem_product, Finset.mem_range, Finset.mem_insert, Finset.mem_singleton]
    refine ⟨hA, ?_⟩
    rcases h.pred hp with h1 | h1
    · omega
    · have := TreeOf.terminal ht h1
      omega

/-- C50 for left-linear grammars: they are read in linear time. -/
theorem C50_left_linear (hB : Built c n w E.g) (hleo : E.leo = false) (ho : UnaryOrdered (rulesOf c))
    (hF : SafeStart E.F f c.rules.length c.numSyms) (hl : LeftLinear (rulesOf c) w.root) {steps : List Step}
    (htok : TokensOK c.numSyms steps) (hin : HintsIn n steps) (hlen : steps.length + 1 < 2 ^ 64)
    (hterm : ∀ st ∈ steps, (st.2.map (·.1)).Nodup ∧ Terminals c n (st.2.map (·.1))) :
    ∃ r, (Rec.new E.counting (f, 0) >>= Rec.session E.counting steps) = pure r ∧
      r.1.forest.2 ≤ linearCost c.numSyms c.rules.length (3 * c.numSyms) * steps.length := by
  refine C50_linear hB hleo ho hF htok hin hlen hterm (hl.ends ?_ ?_)
  · obtain ⟨depth, hP⟩ := hB.processed
    intro r hr
    obtain ⟨cr, hcr, rfl⟩ := List.mem_map.1 hr
    exact hP.lhs_lt cr hcr
  · intro i p hp
    unfold inputOf at hp
    cases hst : steps[i]? with
    | none => rw [hst] at hp; cases hp
    | some st => rw [hst] at hp; exact (htok st (List.mem_of_getElem? hst) p hp).1

/-! ### Examples -/

section
open Gearley.Example

theorem left_linear : LeftLinear (rulesOf Left.cfg) 2 := by
  constructor
  · decide
  · unfold Terminal; decide

-- the hypotheses are met: `S ::= S a | a` is left-linear
example {b : Simple.Bocage} (hb : Simple.Bocage.new Left.grammar.forestInfo = pure b) (k : Nat) (hk : k + 2 < 2 ^ 64) :
    ∃ r, (Rec.new (Env.counting { g := Left.grammar, F := Simple.forest, sorter := sorter }) (b, 0) >>=
        Rec.session (Env.counting { g := Left.grammar, F := Simple.forest, sorter := sorter })
          ((.keep, [(1, 0)]) :: List.replicate k (.keep, [(4, 0)]))) = pure r ∧
      r.1.forest.2 ≤ 2854 * (k + 1) := by
  have hm : ∀ {st : Step}, st ∈ (.keep, [(1, 0)]) :: List.replicate k (Rec.HintOp.keep, [(4, 0)]) →
      st = (.keep, [(1, 0)]) ∨ st = (.keep, [(4, 0)]) := by
    intro st hst
    rcases List.mem_cons.1 hst with rfl | hst
    · exact .inl rfl
    · exact .inr (List.mem_replicate.1 hst).2
  have := C50_left_linear (E := { g := Left.grammar, F := Simple.forest, sorter := sorter }) (f := b) Left.built rfl
    (by unfold UnaryOrdered; decide) ((C02_forests _ _).2.1 _ _ hb) left_linear
    (steps := (.keep, [(1, 0)]) :: List.replicate k (.keep, [(4, 0)])) (by
      intro st hst p hp
      rcases hm hst with rfl | rfl <;> (simp at hp; subst hp; decide)) (by
      intro st hst x hx
      rcases hm hst with rfl | rfl <;> simp at hx) (by simp; omega) (by
      intro st hst
      rcases hm hst with rfl | rfl <;> exact ⟨by simp, by unfold Terminals Terminal; decide⟩)
  simpa [linearCost, Left.cfg] using this

end

end Gearley.Props
