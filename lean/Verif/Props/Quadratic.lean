import Verif.Proofs.Quadratic
import Verif.Props.Cost
import Verif.Examples.Right

/-!
# C48: quadratic time for unambiguous grammars
-/

namespace Gearley.Props
open Gearley.Spec
variable {σ ν : Type} {c : Cfg} {n : Nat} {w : WrappedRoot} {E : Env σ ν} {f : σ}

theorem square_step (n : Nat) : n ^ 2 + (n + 1) ≤ (n + 1) ^ 2 := by
  have : (n + 1) ^ 2 = n ^ 2 + 2 * n + 1 := by ring
  omega

theorem position_arith2 {N R L k : Nat} (hL : 1 ≤ L) (hk : L ≤ k + 1) :
    (N + 2 * (R * L) + R) + (L * (2 * N + R) + 2 * (R * L)) ≤ (3 * N + 6 * R) * (k + 1) := by
  have h1 : (N + 2 * (R * L) + R) + (L * (2 * N + R) + 2 * (R * L)) ≤ (3 * N + 6 * R) * L := by
    nlinarith [Nat.mul_le_mul_left N hL, Nat.mul_le_mul_left R hL]
  exact h1.trans (Nat.mul_le_mul_left _ hk)

/-- C48. On input where no symbol has two derivation trees over the same positions, the recognizer takes quadratic time,
measured as in C43 by the calls to the operations of the forest. -/
theorem C48_quadratic (hB : Built c n w E.g) (hleo : E.leo = false)
    (hF : SafeStart E.F f c.rules.length c.numSyms) {steps : List Step} (htok : TokensOK c.numSyms steps)
    (hin : HintsIn n steps) (hlen : steps.length + 1 < 2 ^ 64)
    (hterm : ∀ st ∈ steps, (st.2.map (·.1)).Nodup ∧ Terminals c n (st.2.map (·.1)))
    (hun : SingleTrees (rulesOf c) w.root (inputOf steps)) :
    ∃ r, (Rec.new E.counting (f, 0) >>= Rec.session E.counting steps) = pure r ∧
      r.1.forest.2 ≤ (3 * c.numSyms + 6 * c.rules.length) * steps.length ^ 2 := by
  obtain ⟨root, rank, g0, hR⟩ := hB.ready
  have hRl : (rulesOf c).length = c.rules.length := by simp [rulesOf]
  obtain ⟨okDot, okLeaf, SF, w0, hI, hd, hl⟩ := counting_safe hF 0
  have hd' := hR.dots hd
  have henv : FSim.env E.g E.lookahead false E.sorter E.counting.F = E.counting := by
    simp only [FSim.env, Env.counting, hleo]
  generalize hW : inputOf steps = W at hun
  have htt : TermToks (rulesOf c) W := by
    intro i
    rw [← hW]
    unfold inputOf
    cases hst : steps[i]? with
    | none => simp
    | some st =>
      have := hterm st (List.mem_of_getElem? hst)
      exact ⟨this.1, fun t ht => (this.2 t.1 (List.mem_map_of_mem ht)).2⟩
  have hWin : StepsIn W 0 steps := by
    intro i st hst
    rw [← hW, Nat.zero_add, inputOf_eq hst]
  clear hW
  -- the state after a part of the session
  have key : ∀ steps : List Step, TokensOK c.numSyms steps → HintsIn n steps → steps.length + 1 < 2 ^ 64 →
      StepsIn W 0 steps →
      ∃ r, (Rec.new E.counting (f, 0) >>= Rec.session E.counting steps) = pure r ∧ (r.2 = true →
        ∃ t S loc, InvAt E.g (rulesOf c) W 0 False (Pred (rulesOf c) E.g.startSym W) (fun _ => False) t steps.length S loc ∧
          ∃ w, SF.sim.RIdle w r.1 t) := by
    intro steps htok hin hlen hWin
    have := sim_run (la := E.lookahead) (so := E.sorter) SF.sim hd' (f0 := []) (w := w0) hI
      (fun st hst p hp => hl p.1 p.2 (htok st hst p hp).1 (htok st hst p hp).2)
      (new_inv_at (la := E.lookahead) (sorter := E.sorter) hR.ok hR.ranked (by omega) (stepsOK_of hR htok hin) hWin [])
    rw [show FSim.env E.g E.lookahead false E.sorter (counting E.F) = E.counting from henv] at this
    obtain ⟨r, h, r0, w', hq, hrel, hr0⟩ := this
    refine ⟨r, h, fun ht => ?_⟩
    obtain ⟨S, loc, hinv⟩ := hq (hr0 ▸ ht)
    exact ⟨r0.1, S, loc, hinv, w', hrel⟩
  obtain ⟨r, hr, hrest⟩ := key steps htok hin hlen hWin
  refine ⟨r, hr, ?_⟩
  clear hrest
  induction steps using List.reverseRecOn generalizing r with
  | nil =>
    obtain ⟨s0, h0, h1⟩ := bind_eq_pure hr
    have h1 := pure_inj_M h1
    unfold Rec.new at h0
    obtain ⟨p, _, h0⟩ := bind_eq_pure h0
    rw [← h1, ← pure_inj_M h0]
    simp
  | append_singleton pre st ih =>
    have hsub : ∀ x ∈ pre, x ∈ pre ++ [st] := fun x h => List.mem_append_left _ h
    simp only [List.length_append, List.length_singleton] at hlen ⊢
    have hp1 : TokensOK c.numSyms pre := fun x h => htok x (hsub x h)
    have hp2 : HintsIn n pre := fun x h => hin x (hsub x h)
    have hp3 := fun x h => hterm x (hsub x h)
    have hp4 : StepsIn W 0 pre := fun i x hx => hWin i x (by
      rw [List.getElem?_append_left (List.getElem?_eq_some_iff.1 hx).1]; exact hx)
    obtain ⟨r1, hr1, hrest1⟩ := key pre hp1 hp2 (by omega) hp4
    have hi := ih hp1 hp2 (by omega) hp3 hp4 r1 hr1
    obtain ⟨s0, h0, hr⟩ := bind_eq_pure hr
    rw [h0, pure_bind] at hr1
    obtain ⟨op, toks⟩ := st
    rw [Rec.session_snoc, hr1, pure_bind] at hr
    have hstep := square_step pre.length
    obtain ⟨s1, ok⟩ := r1
    cases ok with
    | false =>
      simp only [Bool.false_eq_true, if_false] at hr
      rw [← pure_inj_M hr]
      exact hi.trans (Nat.mul_le_mul_left _ (by omega))
    | true =>
      simp only [if_true] at hr
      obtain ⟨t, S, loc, hinv, w', h4⟩ := hrest1 rfl
      have hpos := hinv.rest.pos
      have hSl := hinv.sound.length_le hpos
      have hWe : W pre.length = toks := by
        have := hWin pre.length (op, toks) (by simp)
        rwa [Nat.zero_add] at this
      have hstop : ∀ x, op = .set x → x < E.g.syms := by
        intro x hx
        rw [hR.syms]
        exact hin (op, toks) (by simp) x hx
      have htoks : ∀ p ∈ toks, p.1 < c.numSyms := fun p hp => (htok (op, toks) (by simp) p hp).1
      have hinv' := hinv.hint op hstop
      have h1' := hinv'.rest
      have hdist : Distinct W := fun i => (htt i).1.of_map
      have h3 : ∀ l ∈ S, (l.map dotOrigin).Nodup :=
        hinv.sound.single (hinv.once hdist) hinv.rest.node fun A B C d a b t t' hd hp =>
          hun B a b t t' (hR.start ▸ .corner hp ⟨_, List.mem_of_getElem? hd, rfl, rfl⟩)
      have h4' : (laxSim E.counting.F treeForest).RIdle () (Rec.applyHint s1 op) (Rec.applyHint t op) :=
        FSim.applyHint_rel (ridle_lax h4) op
      have hcost1 : (Rec.applyHint s1 op).cost = s1.forest.2 := by
        have := h4.complete.length_eq
        rw [hinv.rest.empty] at this
        cases op <;> simp [Rec.applyHint, Rec.cost, Rec.setHint, Rec.clearHint] <;> simpa using this
      unfold Rec.position Rec.positionWith at hr
      obtain ⟨s2, h5, hr⟩ := bind_eq_pure hr
      have hsc := scanAll_cost hleo rfl hR.ok h1' (by omega) h4' (by rw [hR.all]; exact htoks) h5
      have hK : (S[S.length - 1]?.getD []).length ≤ c.rules.length * S.length := by
        rw [List.getElem?_eq_getElem (by omega), Option.getD_some, ← hRl]
        refine set_length_le (h3 _ (List.getElem_mem _)) (fun it hit => ?_) fun it hit => ?_
        · obtain ⟨A, B, C, h⟩ := hinv.rest.binary _ (List.getElem_mem _) it hit
          exact ⟨_, h⟩
        · have := hinv.rest.origin _ _ (List.getElem?_eq_getElem (by omega)) it hit
          omega
      have hsc2 := sum_tokenCost_le (rulesOf c) S (o := S.length - 1) (N := c.numSyms) (l := toks.map (·.1))
        (hterm (op, toks) (by simp)).1 (by simpa using fun a b h => htoks (a, b) h) hK
      have harith := position_arith2 (N := c.numSyms) (R := c.rules.length) hpos hSl
      have hfin : r.1.forest.2 ≤ s1.forest.2 + ((c.numSyms + 2 * (c.rules.length * S.length) + c.rules.length) +
          (S.length * (2 * c.numSyms + c.rules.length) + 2 * (c.rules.length * S.length))) := by
        unfold Rec.endEarlemeWith at hr
        obtain ⟨b, _, hr⟩ := bind_eq_pure hr
        rw [hRl] at hsc2
        cases b with
        | true =>
          simp only [if_true] at hr
          rw [← pure_inj_M hr]
          have : s2.forest.2 ≤ s2.cost := Nat.le_add_right _ _
          show s2.forest.2 ≤ _
          omega
        | false =>
          simp only [Bool.false_eq_true, if_false] at hr
          obtain ⟨s3, h6, hr⟩ := bind_eq_pure hr
          obtain ⟨s4, h7, hr⟩ := bind_eq_pure hr
          rw [← pure_inj_M hr]
          obtain ⟨l, s5, h8, rfl⟩ := groups_of_completeAll h6
          have hc := h1'.ok hR.ok (la := E.lookahead) (sorter := E.sorter)
          have hPred := pred_predOK (R := rulesOf c) E.g.startSym W
          obtain ⟨t1, ht1, scans, cur, hmid, hheap, hscans⟩ := mid_sound hR.ok (la := E.lookahead) (sorter := E.sorter) hPred h1'
            hinv'.sound (by omega) (by rw [hWe, hR.all]; exact htoks)
          rw [hWe] at ht1
          have hdT : DotsOK E.g fun _ => True :=
            ⟨fun _ _ _ _ _ => trivial, fun _ _ _ _ _ => trivial, fun _ _ _ _ _ => trivial⟩
          have h5' : Rec.scanAll (FSim.env E.g E.lookahead false E.sorter E.counting.F)
              (Rec.applyHint s1 op).beginEarleme toks = pure s2 := by rw [henv]; exact h5
          obtain ⟨_, _, hrel2⟩ := (FSim.scanAll_rel (S := laxSim E.counting.F treeForest) (g := E.g)
            (la := E.lookahead) (leo := false) (so := E.sorter) hdT (FSim.begin_rel h4') (toks := toks)
            (fun _ _ => trivial)).both h5' ht1
          obtain ⟨hb, hgc⟩ := groups_cost hleo h8
            (c := ctxOf E.g (rulesOf c) root E.lookahead E.sorter (Rec.applyHint t op) S) rfl rfl rfl hc hmid hrel2
          have h8' := h8
          rw [← henv] at h8'
          obtain ⟨t3, hgt⟩ := groups_lax h8'
            (c := ctxOf E.g (rulesOf c) root E.lookahead E.sorter (Rec.applyHint t op) S) rfl rfl rfl hc hmid hrel2
          have hgs := groups_sound hR.ok hPred h1' hinv'.sound hgt hmid hheap
          have hnd : l.Nodup := groups_single hc hinv'.sound (hinv'.once hdist) (hdist _)
            (fun A a t t' hp => hun A a _ t t' (hR.start ▸ hp)) hgt (hscans ▸ hmid)
            fun p hp => by obtain ⟨a, _, i1, _, i2⟩ := hgs p hp; exact ⟨a, i1, i2⟩
          have hwc := sum_wcount_single hinv'.sound h1'.node h3
            (fun k l hk it hit => Nat.le_of_lt (h1'.origin k l hk it hit))
            (fun A a t t' hp ht ht' => hun A a _ t t' (hR.start ▸ hp) ht ht') hnd
            (fun p hp => (hgs p hp).imp fun _ h => h.imp fun _ h => ⟨h.1, h.2.1⟩)
          have hsum := sum_groupCost_single (R := rulesOf c) (S := S) (L := S.length) (N := c.numSyms) hnd
            (fun p hp => ⟨(hb p hp).1, by rw [← hR.all]; exact (hb p hp).2⟩) hwc
          rw [hRl] at hsum
          have e1 := (Rec.advance_keeps h7).1
          have e2 : s4.forest.2 ≤ s5.cost := by rw [e1]; exact Nat.le_add_right _ _
          show s4.forest.2 ≤ _
          have hgc : s5.cost ≤ s2.cost + (l.map (groupCost (rulesOf c) S)).sum := hgc
          omega
      have hi : s1.forest.2 ≤ (3 * c.numSyms + 6 * c.rules.length) * pre.length ^ 2 := hi
      calc r.1.forest.2 ≤ (3 * c.numSyms + 6 * c.rules.length) * pre.length ^ 2 +
            (3 * c.numSyms + 6 * c.rules.length) * (pre.length + 1) := by omega
        _ = (3 * c.numSyms + 6 * c.rules.length) * (pre.length ^ 2 + (pre.length + 1)) := by ring
        _ ≤ _ := Nat.mul_le_mul_left _ hstep

/-! ### Unambiguous grammars -/

/-- At most one token per position, and only symbols without rules. -/
def TerminalInput (R : Rules) (inp : Input) : Prop := ∀ i, inp i = [] ∨ ∃ a v, inp i = [(a, v)] ∧ Terminal R a

/-- No string has two derivation trees. -/
def Unambiguous (R : Rules) (start : Nat) : Prop := ∀ inp, TerminalInput R inp → ∀ n t t', TreeOf R inp t start 0 n →
  TreeOf R inp t' start 0 n → t = t'

/-- Every symbol used in a rule derives a string of symbols without rules. -/
def Productive (R : Rules) : Prop := ∀ r ∈ R, ∀ s, r.rhs0 = s ∨ r.rhs1 = some s → ∃ u, Derives R s u ∧ ∀ a ∈ u, Terminal R a

/-- Every tree of a symbol that may begin here can be completed to a tree of the start symbol over some input that begins in
the same way. -/
theorem pred_plug {R : Rules} {start : Nat} (hprod : Productive R) {inp : Input} {a A : Nat} (h : Pred R start inp a A) :
    ∀ inp1 : Input, (∀ p, p < a → inp1 p = inp p) → TerminalInput R inp1 → ∀ b, a ≤ b →
    ∃ (inp2 : Input) (n : Nat) (C : PTree → PTree), TerminalInput R inp2 ∧ Function.Injective C ∧
      ∀ t, TreeOf R inp1 t A a b → TreeOf R inp2 (C t) start 0 n := by
  induction h with
  | start => exact fun inp1 _ ht b _ => ⟨inp1, b, id, ht, fun _ _ h => h, fun t h => h⟩
  | @corner p A B _ hc ih =>
    intro inp1 he ht b hb
    obtain ⟨⟨l, B', C⟩, hr, rfl, rfl⟩ := hc
    obtain ⟨d, hd⟩ := List.mem_iff_getElem?.1 hr
    cases C with
    | none =>
      obtain ⟨inp2, n, C, h1, h2, h3⟩ := ih inp1 he ht b hb
      refine ⟨inp2, n, fun t => C (.node d t), h1, fun x y hxy => ?_, fun t h => h3 _ (.unary hd h)⟩
      simpa using h2 hxy
    | some X =>
      -- what follows can be completed with any string of `X`
      obtain ⟨u, hu, hterm⟩ := hprod _ hr X (.inr rfl)
      let inp2 : Input := fun q => if q < b then inp1 q else match u[q - b]? with
        | some x => [(x, 0)]
        | none => []
      have hlt : ∀ q, q < b → inp2 q = inp1 q := fun q hq => by simp [inp2, hq]
      have ht2 : TerminalInput R inp2 := by
        intro q
        by_cases hq : q < b
        · rw [hlt q hq]; exact ht q
        · simp only [inp2, if_neg hq]
          cases hx : u[q - b]? with
          | none => exact .inl rfl
          | some x => exact .inr ⟨x, 0, rfl, hterm x (List.mem_of_getElem? hx)⟩
      have hpick : ∀ (v : List Nat) (i : Nat), b ≤ i → (∀ k x, v[k]? = some x → u[i - b + k]? = some x) → Picks inp2 i v := by
        intro v
        induction v with
        | nil => intro i _ _; trivial
        | cons x v ih =>
          intro i hi hv
          refine ⟨⟨0, ?_⟩, ih (i + 1) (by omega) fun k y hy => ?_⟩
          · have := hv 0 x rfl
            rw [Nat.add_zero] at this
            simp only [inp2, if_neg (show ¬ i < b by omega), this]
            simp
          · have := hv (k + 1) y (by simpa using hy)
            rw [show i + 1 - b + k = i - b + (k + 1) by omega]
            exact this
      obtain ⟨tx, htx⟩ := hu.tree b (hpick u b (Nat.le_refl _) fun k x hk => by simpa using hk)
      obtain ⟨inp3, n, C, h1, h2, h3⟩ := ih inp2 (fun q hq => (hlt q (by omega)).trans (he q hq)) ht2 (b + u.length) (by omega)
      refine ⟨inp3, n, fun t => C (.node d (.pair t tx)), h1, fun x y hxy => ?_, fun t h => h3 _ (.binary hd ?_ htx)⟩
      · have := h2 hxy
        simpa using this
      · exact h.congr fun q _ hq => (hlt q hq).symm
  | @medial d A B C q p t hd _ htree ih =>
    intro inp1 he ht b hb
    have hqp := htree.lt
    obtain ⟨inp2, n, C', h1, h2, h3⟩ := ih inp1 (fun x hx => he x (by omega)) ht b (by omega)
    refine ⟨inp2, n, fun t' => C' (.node d (.pair t t')), h1, fun x y hxy => ?_, fun t' h => h3 _ (.binary hd ?_ h)⟩
    · have := h2 hxy
      simpa using this
    · exact htree.congr fun x _ hx => (he x hx).symm

/-- In an unambiguous grammar without unproductive symbols, no symbol has two trees over the same positions. -/
theorem singleTrees_of_unambiguous {R : Rules} {start : Nat} (hu : Unambiguous R start) (hprod : Productive R) {inp : Input}
    (ht : TerminalInput R inp) : SingleTrees R start inp := by
  intro A a b t t' hp h h'
  obtain ⟨inp2, n, C, h1, h2, h3⟩ := pred_plug hprod hp inp (fun _ _ => rfl) ht b (Nat.le_of_lt h.lt)
  exact h2 (hu inp2 h1 n _ _ (h3 t h) (h3 t' h'))

/-- C48 for grammars: if the grammar is unambiguous and all its symbols are productive, reading `k` terminals takes at most
`(3 * symbols + 6 * rules) * k ^ 2` operations, whatever the terminals. -/
theorem C48_unambiguous (hB : Built c n w E.g) (hleo : E.leo = false)
    (hF : SafeStart E.F f c.rules.length c.numSyms) (hu : Unambiguous (rulesOf c) w.root) (hprod : Productive (rulesOf c))
    {u : List (Nat × Nat)} (htok : ∀ p ∈ u, p.2 < 2 ^ 32) (hterm : Terminals c n (u.map (·.1)))
    (hlen : u.length + 1 < 2 ^ 64) :
    ∃ r, (Rec.new E.counting (f, 0) >>= Rec.session E.counting (u.map fun p => (.keep, [p]))) = pure r ∧
      r.1.forest.2 ≤ (3 * c.numSyms + 6 * c.rules.length) * u.length ^ 2 := by
  obtain ⟨depth, hP⟩ := hB.processed
  have hn := hP.syms_le
  have hmem : ∀ {st : Step}, st ∈ u.map (fun p => ((.keep, [p]) : Step)) → ∃ p ∈ u, st = (.keep, [p]) := by
    intro st hst
    obtain ⟨p, hp, rfl⟩ := List.mem_map.1 hst
    exact ⟨p, hp, rfl⟩
  have hsym : ∀ p ∈ u, p.1 < n ∧ Terminal (rulesOf c) p.1 := fun p hp => hterm p.1 (List.mem_map_of_mem hp)
  have := C48_quadratic hB hleo hF (steps := u.map fun p => (.keep, [p])) ?_ ?_ (by simpa using hlen) ?_ ?_
  · simpa using this
  · intro st hst q hq
    obtain ⟨p, hp, rfl⟩ := hmem hst
    obtain rfl : q = p := by simpa using hq
    exact ⟨Nat.lt_of_lt_of_le (hsym q hp).1 hn, htok q hp⟩
  · intro st hst x hx
    obtain ⟨p, hp, rfl⟩ := hmem hst
    cases hx
  · intro st hst
    obtain ⟨p, hp, rfl⟩ := hmem hst
    refine ⟨by simp, ?_⟩
    intro t ht
    obtain rfl : t = p.1 := by simpa using ht
    exact hsym p hp
  · refine singleTrees_of_unambiguous hu hprod fun i => ?_
    unfold inputOf
    rw [List.getElem?_map]
    cases hi : u[i]? with
    | none => exact .inl rfl
    | some p => exact .inr ⟨p.1, p.2, rfl, (hsym p (List.mem_of_getElem? hi)).2⟩

/-! ### Example: `S ::= a S | a` -/

namespace RightExample
open Gearley.Example

theorem rule_cases {d : Nat} {r : Rule} (h : (rulesOf Right.cfg)[d]? = some r) :
    (d = 0 ∧ r = ⟨2, 5, some 0⟩) ∨ (d = 1 ∧ r = ⟨3, 4, some 3⟩) ∨ (d = 2 ∧ r = ⟨3, 4, none⟩) ∨ (d = 3 ∧ r = ⟨5, 1, some 3⟩) := by
  have hd : d < 4 := (List.getElem?_eq_some_iff.1 h).1
  have h : some r = (rulesOf Right.cfg)[d]? := h.symm
  obtain rfl | rfl | rfl | rfl : d = 0 ∨ d = 1 ∨ d = 2 ∨ d = 3 := by omega
  all_goals
    simp only [rulesOf, Right.cfg, ruleOf, List.map_cons, List.map_nil, List.getElem?_cons_zero, List.getElem?_cons_succ,
      Option.some.injEq] at h
    subst h
    simp

variable {inp : Input}

/-- Trees of a symbol, by the last rule. -/
theorem tree_cases (ht : TerminalInput (rulesOf Right.cfg) inp) {t : PTree} {A i j : Nat} (h : TreeOf (rulesOf Right.cfg) inp t A i j) :
    ((∃ v, A ≠ 2 ∧ A ≠ 3 ∧ A ≠ 5 ∧ inp i = [(A, v)] ∧ t = .leaf A v ∧ j = i + 1)) ∨
    (A = 2 ∧ ∃ l r k, t = .node 0 (.pair l r) ∧ TreeOf (rulesOf Right.cfg) inp l 5 i k ∧ TreeOf (rulesOf Right.cfg) inp r 0 k j) ∨
    (A = 3 ∧ ∃ l r k, t = .node 1 (.pair l r) ∧ TreeOf (rulesOf Right.cfg) inp l 4 i k ∧ TreeOf (rulesOf Right.cfg) inp r 3 k j) ∨
    (A = 3 ∧ ∃ l, t = .node 2 l ∧ TreeOf (rulesOf Right.cfg) inp l 4 i j) ∨
    (A = 5 ∧ ∃ l r k, t = .node 3 (.pair l r) ∧ TreeOf (rulesOf Right.cfg) inp l 1 i k ∧ TreeOf (rulesOf Right.cfg) inp r 3 k j) := by
  cases h with
  | @leaf _ v _ hm =>
    rcases ht i with he | ⟨b, v', he, hterm⟩
    · rw [he] at hm; cases hm
    · rw [he] at hm
      obtain ⟨rfl, rfl⟩ : A = b ∧ v = v' := by simpa using hm
      refine .inl ⟨v, ?_, ?_, ?_, he, rfl, rfl⟩
      · exact fun h => hterm ⟨2, 5, some 0⟩ (by decide) h.symm
      · exact fun h => hterm ⟨3, 4, none⟩ (by decide) h.symm
      · exact fun h => hterm ⟨5, 1, some 3⟩ (by decide) h.symm
  | unary hd h1 =>
    rcases rule_cases hd with ⟨rfl, h⟩ | ⟨rfl, h⟩ | ⟨rfl, h⟩ | ⟨rfl, h⟩ <;> cases h
    exact .inr (.inr (.inr (.inl ⟨rfl, _, rfl, h1⟩)))
  | binary hd h1 h2 =>
    rcases rule_cases hd with ⟨rfl, h⟩ | ⟨rfl, h⟩ | ⟨rfl, h⟩ | ⟨rfl, h⟩ <;> cases h
    · exact .inr (.inl ⟨rfl, _, _, _, rfl, h1, h2⟩)
    · exact .inr (.inr (.inl ⟨rfl, _, _, _, rfl, h1, h2⟩))
    · exact .inr (.inr (.inr (.inr ⟨rfl, _, _, _, rfl, h1, h2⟩)))

theorem leaf_tree (ht : TerminalInput (rulesOf Right.cfg) inp) {t : PTree} {A i j : Nat} (hA : A ≠ 2 ∧ A ≠ 3 ∧ A ≠ 5)
    (h : TreeOf (rulesOf Right.cfg) inp t A i j) : ∃ v, inp i = [(A, v)] ∧ t = .leaf A v ∧ j = i + 1 := by
  rcases tree_cases ht h with ⟨v, _, _, _, h⟩ | ⟨h, _⟩ | ⟨h, _⟩ | ⟨h, _⟩ | ⟨h, _⟩
  · exact ⟨v, h⟩
  all_goals omega

theorem leaf_unique (ht : TerminalInput (rulesOf Right.cfg) inp) {t t' : PTree} {A i j j' : Nat} (hA : A ≠ 2 ∧ A ≠ 3 ∧ A ≠ 5)
    (h : TreeOf (rulesOf Right.cfg) inp t A i j) (h' : TreeOf (rulesOf Right.cfg) inp t' A i j') : t = t' ∧ j = j' := by
  obtain ⟨v, h1, rfl, rfl⟩ := leaf_tree ht hA h
  obtain ⟨v', h2, rfl, rfl⟩ := leaf_tree ht hA h'
  rw [h1] at h2
  simp only [List.cons.injEq, Prod.mk.injEq, true_and, and_true] at h2
  rw [h2]
  exact ⟨rfl, rfl⟩

theorem list_unique (ht : TerminalInput (rulesOf Right.cfg) inp) : ∀ (k : Nat) {t t' : PTree} {i j : Nat}, j ≤ i + k →
    TreeOf (rulesOf Right.cfg) inp t 3 i j → TreeOf (rulesOf Right.cfg) inp t' 3 i j → t = t' := by
  intro k
  induction k with
  | zero => intro t t' i j hk h _; have := h.lt; omega
  | succ k ih =>
    intro t t' i j hk h h'
    have hf : ∀ {t : PTree} {a b : Nat}, TreeOf (rulesOf Right.cfg) inp t 4 a b → b = a + 1 :=
      fun h => (leaf_tree ht (by decide) h).choose_spec.2.2
    rcases tree_cases ht h with ⟨v, _, h1, _⟩ | ⟨h1, _⟩ | ⟨_, l, r, m, rfl, h1, h2⟩ | ⟨_, l, rfl, h1⟩ | ⟨h1, _⟩
    · exact absurd rfl h1
    · cases h1
    · rcases tree_cases ht h' with ⟨v, _, h1, _⟩ | ⟨h1, _⟩ | ⟨_, l', r', m', rfl, h1', h2'⟩ | ⟨_, l', rfl, h1'⟩ | ⟨h1, _⟩
      · exact absurd rfl h1
      · cases h1
      · obtain ⟨rfl, rfl⟩ := leaf_unique ht (by decide) h1 h1'
        have := h1.lt
        rw [ih (by omega) h2 h2']
      · have e1 := hf h1
        have e2 := hf h1'
        have := h2.lt
        omega
      · cases h1
    · rcases tree_cases ht h' with ⟨v, _, h1, _⟩ | ⟨h1, _⟩ | ⟨_, l', r', m', rfl, h1', h2'⟩ | ⟨_, l', rfl, h1'⟩ | ⟨h1, _⟩
      · exact absurd rfl h1
      · cases h1
      · have e1 := hf h1
        have e2 := hf h1'
        have := h2'.lt
        omega
      · rw [(leaf_unique ht (by decide) h1 h1').1]
      · cases h1
    · cases h1

theorem unambiguous : Unambiguous (rulesOf Right.cfg) 2 := by
  intro inp ht n t t' h h'
  rcases tree_cases ht h with ⟨v, h1, _⟩ | ⟨_, l, r, m, rfl, h1, h2⟩ | ⟨h1, _⟩ | ⟨h1, _⟩ | ⟨h1, _⟩
  · exact absurd rfl h1
  · rcases tree_cases ht h' with ⟨v, h1, _⟩ | ⟨_, l', r', m', rfl, h1', h2'⟩ | ⟨h1, _⟩ | ⟨h1, _⟩ | ⟨h1, _⟩
    · exact absurd rfl h1
    · obtain ⟨v, _, _, e1⟩ := leaf_tree ht (by decide) h2
      obtain ⟨v', _, _, e2⟩ := leaf_tree ht (by decide) h2'
      obtain rfl : m = m' := by omega
      rw [(leaf_unique ht (by decide) h2 h2').1]
      rcases tree_cases ht h1 with ⟨v, _, _, h3, _⟩ | ⟨h3, _⟩ | ⟨h3, _⟩ | ⟨h3, _⟩ | ⟨_, a, b, k, rfl, h3, h4⟩
      · exact absurd rfl h3
      · cases h3
      · cases h3
      · cases h3
      · rcases tree_cases ht h1' with ⟨v, _, _, h3, _⟩ | ⟨h3, _⟩ | ⟨h3, _⟩ | ⟨h3, _⟩ | ⟨_, a', b', k', rfl, h3', h4'⟩
        · exact absurd rfl h3
        · cases h3
        · cases h3
        · cases h3
        · obtain ⟨rfl, rfl⟩ := leaf_unique ht (by decide) h3 h3'
          rw [list_unique ht m (by omega) h4 h4']
    all_goals cases h1
  all_goals cases h1

theorem productive : Productive (rulesOf Right.cfg) := by
  have h4 : Derives (rulesOf Right.cfg) 3 [4] := Derives.unary (r := ⟨3, 4, none⟩) (by decide) rfl (.refl 4)
  have h5 : Derives (rulesOf Right.cfg) 5 [1, 4] := Derives.binary (r := ⟨5, 1, some 3⟩) (by decide) rfl (.refl 1) h4
  have hs : ∀ s, s < 6 → s ≠ 2 → ∃ u, Derives (rulesOf Right.cfg) s u ∧ ∀ a ∈ u, Terminal (rulesOf Right.cfg) a := by
    intro s hs h2
    obtain rfl | rfl | rfl | rfl | rfl : s = 0 ∨ s = 1 ∨ s = 3 ∨ s = 4 ∨ s = 5 := by omega
    · exact ⟨[0], .refl 0, by unfold Terminal; decide⟩
    · exact ⟨[1], .refl 1, by unfold Terminal; decide⟩
    · exact ⟨[4], h4, by unfold Terminal; decide⟩
    · exact ⟨[4], .refl 4, by unfold Terminal; decide⟩
    · exact ⟨[1, 4], h5, by unfold Terminal; decide⟩
  intro r hr s h
  have : s < 6 ∧ s ≠ 2 := by
    have key : ∀ r ∈ rulesOf Right.cfg, (r.rhs0 < 6 ∧ r.rhs0 ≠ 2) ∧ ∀ x ∈ r.rhs1, x < 6 ∧ x ≠ 2 := by decide
    rcases h with rfl | h
    · exact (key r hr).1
    · exact (key r hr).2 s h
  exact hs s this.1 this.2

-- every list of symbols `a` and `sof` is read in quadratic time
example {u : List (Nat × Nat)} (hu : ∀ p ∈ u, (p.1 = 1 ∨ p.1 = 4) ∧ p.2 < 2 ^ 32) (hlen : u.length + 1 < 2 ^ 64) :
    ∃ r, (Rec.new (Env.counting { g := Right.grammar, F := nullForest, sorter := sorter }) ((), 0) >>=
        Rec.session (Env.counting { g := Right.grammar, F := nullForest, sorter := sorter })
          (u.map fun p => (.keep, [p]))) = pure r ∧ r.1.forest.2 ≤ 42 * u.length ^ 2 := by
  have := C48_unambiguous (E := { g := Right.grammar, F := nullForest, sorter := sorter }) Right.built rfl
    (nullForest_safeStart _ _) unambiguous productive (u := u)
    (fun p hp => (hu p hp).2) (by
      intro t ht
      obtain ⟨p, hp, rfl⟩ := List.mem_map.1 ht
      rcases (hu p hp).1 with h | h <;> rw [h] <;> exact ⟨by decide, by unfold Terminal; decide⟩) hlen
  exact this

end RightExample

end Gearley.Props
