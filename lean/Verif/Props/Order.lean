import Verif.Proofs.Chains
import Verif.Props.Chart
import Verif.Props.Recognition
import Mathlib.Order.Interval.Finset.Nat
import Verif.Examples.Sums

/-!
# C47: one-symbol rules numbered the other way
-/

namespace Gearley.Props
open Gearley.Spec
variable {σ ν : Type} {c : Cfg} {n : Nat} {w : WrappedRoot} {E : Env σ ν} {f : σ}

/-- C47. Let `U A` be some of the symbols `B` with a rule `B ::= A` such that `B` has the larger number
and is predicted after the session. Then reading a token `t` makes the completion pass go through at least as many groups as
there are ways to climb from `t` (counted by `p`), because a group is completed once for every way to reach it. -/
theorem C47_climb (hB : Built c n w E.g) (hleo : E.leo = false) (hF : SafeStart E.F f c.rules.length c.numSyms)
    {steps : List Step} (htok : TokensOK c.numSyms steps) (hstart : ∀ st ∈ steps, ∀ t ∈ st.2, t.1 ≠ w.root)
    (hno : NoHints steps) (hlen : steps.length + 1 < 2 ^ 64) {U : Nat → Finset Nat} {p : Nat → Nat}
    (hU : ∀ A, ∀ B ∈ U A, Rule.mk B A none ∈ rulesOf c ∧ A < B ∧ B < n ∧
      ∃ u v, u.length = steps.length ∧ Picks (inputOf steps) 0 u ∧ Derives (rulesOf c) w.root (u ++ B :: v))
    (hp : ∀ A, p A ≤ 1 + ∑ B ∈ U A, p B) {t val : Nat} (ht : t < c.numSyms) (hval : val < 2 ^ 32) :
    ∃ r, (Rec.new E f >>= Rec.session E steps) = pure r ∧ (r.2 = true →
      ∃ s1 l s2, Rec.scan E (Rec.applyHint r.1 .clear).beginEarleme t val = pure s1 ∧
        Rec.completeAll E s1 = pure s2.clearHint ∧ Rec.Groups E s1 l s2 ∧ p t ≤ 1 + l.length) := by
  obtain ⟨root, rank, g0, hR⟩ := hB.ready
  obtain ⟨okDot, okLeaf, SF, w0, hI, hd, hl⟩ := hF
  have hd' := hR.dots hd
  have := sim_run (la := E.lookahead) (so := E.sorter) SF.sim hd' (f0 := []) (w := w0) hI
    (fun st hst p hp => hl p.1 p.2 (htok st hst p hp).1 (htok st hst p hp).2)
    (new_viable (la := E.lookahead) (sorter := E.sorter) hR.ok hR.ranked (by omega)
      (stepsOK_of hR htok fun st hst x hx => absurd hx (hno st hst x)) (fun _ => hno) (by rw [hR.start]; exact hstart) [])
  rw [env_eta hleo] at this
  obtain ⟨r, h, r0, w', ⟨_, hq⟩, hrel, hr0⟩ := this
  refine ⟨r, h, fun htr => ?_⟩
  obtain ⟨S, loc, hinv, hbit⟩ := hq (hr0 ▸ htr)
  have hSl := hinv.sound.length_le hinv.rest.pos
  have hpos := hinv.rest.pos
  have hrest' := rest_hint hinv.rest (op := .clear) (by simp)
  have hrel' : (SF.sim).RIdle w' (Rec.applyHint r.1 .clear).beginEarleme (Rec.applyHint r0.1 .clear).beginEarleme :=
    ⟨rfl, hrel.predicted, hrel.medial.nextSet, hrel.complete, hrel.forest⟩
  have hc := hrest'.ok hR.ok (la := E.lookahead) (sorter := E.sorter)
  have hmid0 : (ctxOf E.g (rulesOf c) root E.lookahead E.sorter (Rec.applyHint r0.1 .clear) S).Mid 0
      (Rec.applyHint r0.1 .clear).beginEarleme 0 0 [] := by
    refine ⟨?_, ?_, rfl, rfl, by simp, ?_, by simp, ?_, by simp⟩
    · simp only [Rec.beginEarleme, hrest'.medial, Vec2d.nextSet_eq]; rfl
    · show Heap.IsHeap (Rec.applyHint r0.1 .clear).complete
      rw [hrest'.empty]; exact Heap.isHeap_nil
    · show facts (Rec.applyHint r0.1 .clear).complete + 0 = _
      rw [hrest'.empty]; simp
    · show ∀ it ∈ (Rec.applyHint r0.1 .clear).complete, _
      rw [hrest'.empty]; simp
  obtain ⟨t1, ht1, hmid, hperm⟩ := hmid0.scan hc (a := t) (v := val) (by exact hpos) (by show S.length < _; omega)
    (by show t < E.g.syms + E.g.gensyms; rw [hR.all]; exact ht)
  have hscan1 : ∀ {σ ν : Type} (E : Env σ ν) s, Rec.scanAll E s [(t, val)] = Rec.scan E s t val := by
    intro σ ν E s
    simp [Rec.scanAll]
  have ht1' := ht1
  rw [← hscan1] at ht1'
  obtain ⟨s1, hs1, w1, _, hrel1⟩ := (FSim.scanAll_rel (g := E.g) (la := E.lookahead) (leo := false) (so := E.sorter) hd'
    hrel' (toks := [(t, val)]) (by simpa using hl t val ht hval)).returns ht1'
  obtain ⟨t2, ht2, _⟩ := (EC.completeAll_spec' hc hmid (fun _ _ => True) (.inr (hR.ranked.settles _)) trivial
    (EC.keeps_true _ [(t, val)]).step).returns
  obtain ⟨s2, hs2, _⟩ := (FSim.completeAll_rel (g := E.g) (la := E.lookahead) (leo := false) (so := E.sorter) hd'
    hrel1).returns ht2
  rw [env_eta hleo] at hs1 hs2
  rw [hscan1] at hs1
  obtain ⟨l, s3, hg3, rfl⟩ := groups_of_completeAll hs2
  have hg3' := hg3
  rw [← env_eta hleo] at hg3'
  obtain ⟨t3, hgt⟩ := groups_lax hg3' (c := ctxOf E.g (rulesOf c) root E.lookahead E.sorter (Rec.applyHint r0.1 .clear) S)
    rfl rfl rfl hc hmid (ridle_lax hrel1)
  refine ⟨s1, l, s3, hs1, hs2, hg3, ?_⟩
  -- every symbol above is predicted
  have hb : ∀ B, B < n → (∃ u v, u.length = steps.length ∧ Picks (inputOf steps) 0 u ∧
      Derives (rulesOf c) w.root (u ++ B :: v)) → r0.1.predicted.bit (S.length - 1) B = true := by
    intro B hB1 hB2
    rw [hbit B (by rw [hR.syms]; exact hB1), hR.start]
    exact hB2
  have hcl : (ctxOf E.g (rulesOf c) root E.lookahead E.sorter (Rec.applyHint r0.1 .clear) S).Climbs (S.length - 1) U := by
    refine ⟨?_, ?_, fun A B h => (hU A B h).2.1⟩
    · intro A B hBU
      obtain ⟨h1, h2, h3, h4⟩ := hU A B hBU
      obtain ⟨d, hd⟩ := List.mem_iff_getElem?.1 h1
      refine ⟨d, hd, ?_⟩
      show r0.1.predicted.bit _ (root B) = true
      rw [hR.ok.root_id B (by rw [hR.syms]; exact h3)]
      exact hb B h3 h4
    · intro A B hBU
      obtain ⟨h1, h2, h3, u, v, h4, h5, h6⟩ := hU A B hBU
      show (decide _ || r0.1.predicted.bit _ A) = true
      rw [hb A (by omega) ⟨u, v, h4, h5, ?_⟩, Bool.or_true]
      have := h6.replace (Derives.unary (r := Rule.mk B A none) h1 rfl (.refl A))
      simpa using this
  have key := EC.groups_many hc rfl hcl hp hgt hmid (U t) (by
    intro B hBU
    obtain ⟨it, hit, hk⟩ := hcl.new (N := [.leaf t val]) rfl hBU
    exact ⟨it, hperm.mem_iff.2 (List.mem_append_right _ hit), hk⟩)
  exact (hp t).trans (by omega)

/-! ### A family of grammars -/

/-- The rules `X(j+1) ::= X(i)` for `i ≤ j < k`, where `X(i)` has number `4 + i`. -/
def ladderRules (k : Nat) : List CfgRule :=
  (List.range k).flatMap fun j => (List.range (j + 1)).map fun i =>
    { lhs := 5 + j, rhs := [4 + i], origin := some (j + i), dots := Example.dots3 }

/-- `X(0) ::= a` and `X(j) ::= X(i)` for `i < j ≤ k`, with start symbol `X(k)`. There are no cycles.
Symbols: 0 eof, 1 sof, 2 a, 3 root, `4 + i` `X(i)`; generated: `5 + k`. -/
def ladder (k : Nat) : Cfg where
  numSyms := 6 + k
  rules := [
    { lhs := 3, rhs := [5 + k, 0], dots := Example.dots3 },
    { lhs := 4, rhs := [2], origin := some 0, dots := Example.dots3 }] ++ ladderRules k ++ [
    { lhs := 5 + k, rhs := [1, 4 + k], dots := Example.dots3 }]
  wrappedRoots := [⟨3, 1, 0, 4 + k⟩]

def ladderRoot (k : Nat) : WrappedRoot := ⟨3, 1, 0, 4 + k⟩

theorem mem_ladderRules {k : Nat} {r : CfgRule} : r ∈ ladderRules k ↔ ∃ j i, j < k ∧ i ≤ j ∧
    r = { lhs := 5 + j, rhs := [4 + i], origin := some (j + i), dots := Example.dots3 } := by
  simp only [ladderRules, List.mem_flatMap, List.mem_map, List.mem_range]
  constructor
  · rintro ⟨j, hj, i, hi, rfl⟩; exact ⟨j, i, hj, by omega, rfl⟩
  · rintro ⟨j, i, hj, hi, rfl⟩; exact ⟨j, hj, i, by omega, rfl⟩

theorem ladder_cases {k : Nat} {P : CfgRule → Prop} (h1 : P { lhs := 3, rhs := [5 + k, 0], dots := Example.dots3 })
    (h2 : P { lhs := 4, rhs := [2], origin := some 0, dots := Example.dots3 })
    (h3 : ∀ j i, j < k → i ≤ j → P { lhs := 5 + j, rhs := [4 + i], origin := some (j + i), dots := Example.dots3 })
    (h4 : P { lhs := 5 + k, rhs := [1, 4 + k], dots := Example.dots3 }) : ∀ r ∈ (ladder k).rules, P r := by
  intro r hr
  simp only [ladder, List.mem_append, List.mem_cons, List.not_mem_nil, or_false] at hr
  rcases hr with ((rfl | rfl) | hr) | rfl
  · exact h1
  · exact h2
  · obtain ⟨j, i, hj, hi, rfl⟩ := mem_ladderRules.1 hr
    exact h3 j i hj hi
  · exact h4

theorem ladder_count {k : Nat} {P : CfgRule → Prop} [DecidablePred P]
    (h : ∀ j i, j < k → i ≤ j → ¬ P { lhs := 5 + j, rhs := [4 + i], origin := some (j + i), dots := Example.dots3 }) :
    (ladder k).rules.countP P = [CfgRule.mk 3 [5 + k, 0] none none Example.dots3, CfgRule.mk 4 [2] (some 0) none Example.dots3,
      CfgRule.mk (5 + k) [1, 4 + k] none none Example.dots3].countP P := by
  have : (ladderRules k).countP P = 0 := by
    rw [List.countP_eq_zero]
    intro r hr
    obtain ⟨j, i, hj, hi, rfl⟩ := mem_ladderRules.1 hr
    simpa using h j i hj hi
  simp [ladder, List.countP_append, List.countP_cons, this]

theorem ladder_processed (k : Nat) : ProcessedOK (ladder k) (5 + k) (ladderRoot k) (fun A => if A = 5 + k then 4 else 0) where
  len := ladder_cases (by simp) (by simp) (by simp) (by simp)
  lhs_lt := ladder_cases (by simp [ladder]; omega) (by simp [ladder]; omega) (by simp [ladder]; omega) (by simp [ladder])
  rhs_lt := ladder_cases (by simp [ladder]) (by simp [ladder]; omega) (by simp [ladder]; omega) (by simp [ladder]; omega)
  sorted := by
    have h1 : (ladderRules k).Pairwise fun a b => a.lhs ≤ b.lhs := by
      unfold ladderRules
      rw [List.pairwise_flatMap]
      refine ⟨fun j _ => ?_, ?_⟩
      · rw [List.pairwise_map]
        exact List.pairwise_of_forall fun _ _ => Nat.le_refl _
      · refine List.pairwise_lt_range.imp fun {a b} hab x hx y hy => ?_
        obtain ⟨_, _, rfl⟩ := List.mem_map.1 hx
        obtain ⟨_, _, rfl⟩ := List.mem_map.1 hy
        simp only; omega
    have h2 : ∀ r ∈ ladderRules k, 5 ≤ r.lhs ∧ r.lhs < 5 + k := by
      intro r hr
      obtain ⟨j, i, hj, hi, rfl⟩ := mem_ladderRules.1 hr
      simp only; omega
    simp only [ladder, List.cons_append, List.nil_append, List.pairwise_cons, List.pairwise_append, List.mem_append,
      List.mem_cons, List.not_mem_nil, or_false]
    refine ⟨?_, ?_, h1, by simp, ?_⟩
    · rintro r (rfl | hr | rfl)
      · simp
      · have := h2 r hr; omega
      · simp only; omega
    · rintro r (hr | rfl)
      · have := h2 r hr; omega
      · simp only; omega
    · rintro r hr _ rfl
      have := h2 r hr; simp only; omega
  syms_le := by simp [ladder]
  gen := by
    intro A hA
    have hA : A < 6 + k := hA
    unfold Generated
    rw [ladder_count (by simp), ladder_count (by simp)]
    constructor
    · rintro ⟨h1, h2, h3, r, hr, h4, h5⟩
      revert h4 h5
      revert r
      refine ladder_cases ?_ ?_ ?_ ?_
      · simp only
        rintro rfl
        exfalso
        revert h2
        simp [List.countP_cons]
      · simp
      · simp
      · simp only; omega
    · intro h
      have : A = 5 + k := by omega
      subst this
      refine ⟨?_, ?_, ?_, ?_⟩
      · simp [List.countP_cons]
        rw [if_neg (by omega), if_neg (by omega)]
      · simp [List.countP_cons]
        try omega
      · exact ladder_cases (by simp) (by simp) (by simp) (by simp)
      · exact ⟨CfgRule.mk (5 + k) [1, 4 + k] none none Example.dots3, by simp [ladder], rfl, rfl⟩
  genLhs := by
    refine ladder_cases ?_ ?_ ?_ ?_
    · refine ladder_cases ?_ ?_ ?_ ?_ <;> simp
      · omega
      · omega
      · omega
    · intro _ _ _ h; simp at h; omega
    · intro j i hj hi _ _ _ h; simp at h; omega
    · intro _ _ _ h; simp at h; omega
  genUnary := by
    intro A h1 h2
    have h2 : A < 6 + k := h2
    rw [ladder_count]
    · simp [List.countP_cons]
      split <;> omega
    · intro j i hj hi h; simp at h; omega
  depth := by
    refine ladder_cases ?_ ?_ ?_ ?_
    · simp
      rw [if_neg (by omega)]; omega
    · simp; omega
    · intro j i hj hi; simp; omega
    · simp; omega
  dots := ladder_cases (by simp [Example.dots3]) (by simp [Example.dots3]) (by simp [Example.dots3]) (by simp [Example.dots3])
  numRoots := rfl
  root := rfl
  start_lt := by simp [ladderRoot]; omega
  eof_lt := by simp [ladderRoot]
  startRule := ⟨CfgRule.mk 3 [5 + k, 0] none none Example.dots3, by simp [ladder], rfl, rfl⟩
  eofOnce := by
    rw [ladder_count (by simp)]
    simp [List.countP_cons, ladderRoot]
  eofNot0 := ladder_cases (by simp [ladderRoot]) (by simp [ladderRoot]) (by simp [ladderRoot]) (by simp [ladderRoot])
  eofTerm := ladder_cases (by simp [ladderRoot]) (by simp [ladderRoot]) (by simp [ladderRoot]) (by simp [ladderRoot])
  eofMin := ladder_cases (by simp [ladderRoot]) (by simp [ladderRoot]) (by simp [ladderRoot]) (by simp [ladderRoot])
  startNot := ladder_cases (by simp [ladderRoot]; omega) (by simp [ladderRoot]) (by simp [ladderRoot]; omega) (by simp [ladderRoot]; omega)

/-- All symbols, for all symbols. -/
def ladderSets (k : Nat) : List (Nat × List Nat) := (List.range (5 + k)).map fun s => (s, List.range (5 + k))

theorem ladder_rules {k : Nat} {P : Rule → Prop} (h1 : P ⟨3, 5 + k, some 0⟩) (h2 : P ⟨4, 2, none⟩)
    (h3 : ∀ j i, j < k → i ≤ j → P ⟨5 + j, 4 + i, none⟩) (h4 : P ⟨5 + k, 1, some (4 + k)⟩) :
    ∀ r ∈ rulesOf (ladder k), P r := by
  intro r hr
  obtain ⟨q, hq, rfl⟩ := List.mem_map.1 hr
  revert q
  exact fun q hq _ => ladder_cases (P := fun q => P (ruleOf q)) h1 h2 h3 h4 q hq

/-- There is a parser for each of these grammars. -/
theorem ladder_built (k : Nat) : ∃ g, Built (ladder k) (5 + k) (ladderRoot k) g := by
  obtain ⟨g, root, hg, _⟩ := fromProcessed_ok (ladder_processed k) (maps := {}) (nulling := Example.noRules)
    (first := ladderSets k) (follow := ladderSets k) ⟨[], rfl⟩
  have hin : ∀ {s t : Nat}, s < 5 + k → t < 5 + k → ∃ p ∈ ladderSets k, p.1 = s ∧ t ∈ p.2 := by
    intro s t hs ht
    exact ⟨(s, List.range (5 + k)), List.mem_map.2 ⟨s, List.mem_range.2 hs, rfl⟩, rfl, List.mem_range.2 ht⟩
  refine ⟨g, ⟨⟨⟨_, ladder_processed k⟩, ⟨_, _, _, _, hg, ?_, ?_⟩, ?_, ?_⟩, ?_⟩⟩
  · exact fun C t u hC ht _ _ _ => hin hC ht
  · exact fun C t _ _ hC ht _ _ => hin hC ht
  · simp [ladderRoot]; omega
  · exact ladder_rules (by simp [ladderRoot]) (by simp [ladderRoot]) (by simp [ladderRoot]; omega) (by simp [ladderRoot]; omega)
  · refine ⟨fun A => if A = 2 then 6 + k else 5 + k - A, ladder_rules (by simp) ?_ ?_ (by simp)⟩
    · simp; omega
    · intro j i hj hi _
      simp only
      rw [if_neg (by omega), if_neg (by omega)]
      omega

theorem ladder_climb (k d : Nat) : ∀ i, i + d = k → Derives (rulesOf (ladder k)) (4 + k) [4 + i] := by
  intro i hi
  rcases Nat.eq_zero_or_pos d with rfl | hd
  · obtain rfl : i = k := by omega
    exact .refl _
  · refine Derives.unary (r := Rule.mk (4 + k) (4 + i) none) ?_ rfl (.refl _)
    refine List.mem_map.2 ⟨{ lhs := 5 + (k - 1), rhs := [4 + i], origin := some (k - 1 + i), dots := Example.dots3 }, ?_, ?_⟩
    · simp only [ladder, List.mem_append]
      exact .inl (.inr (mem_ladderRules.2 ⟨k - 1, i, by omega, by omega, rfl⟩))
    · simp only [ruleOf, Rule.mk.injEq]
      exact ⟨by omega, rfl, rfl⟩

theorem sum_powers (k : Nat) : ∀ d i, i + d = k → ∑ j ∈ Finset.Ioc i k, 2 ^ (k - j) = 2 ^ (k - i) - 1 := by
  intro d
  induction d with
  | zero => rintro i rfl; simp
  | succ d ih =>
    intro i hi
    have h1 : Finset.Ioc i k = insert (i + 1) (Finset.Ioc (i + 1) k) := by
      ext x; simp only [Finset.mem_Ioc, Finset.mem_insert]; omega
    rw [h1, Finset.sum_insert (by simp), ih (i + 1) (by omega)]
    have h2 : k - i = (k - (i + 1)) + 1 := by omega
    have h3 : 0 < 2 ^ (k - (i + 1)) := Nat.two_pow_pos _
    rw [h2, Nat.pow_succ]
    omega

/-- C47. C15 and C43 need the order of one-symbol rules. For every `k` there is a grammar without cycles, of `k * (k + 1) / 2 + 3` rules
on `k + 6` symbols, with a parser, such that reading its only sentence `a` makes the completion pass go through at least
`2 ^ k` groups at one position, for every forest. -/
theorem C47_exponential (k : Nat) : (ladder k).rules.length = k * (k + 1) / 2 + 3 ∧ (ladder k).numSyms = k + 6 ∧
    ∃ g, Built (ladder k) (5 + k) (ladderRoot k) g ∧ ∀ {σ ν : Type} {E : Env σ ν} {f : σ}, E.g = g → E.leo = false →
      SafeStart E.F f (ladder k).rules.length (ladder k).numSyms → ∀ v val, v < 2 ^ 32 → val < 2 ^ 32 →
      ∃ r, (Rec.new E f >>= Rec.session E [(.keep, [(1, v)])]) = pure r ∧ r.2 = true ∧
        ∃ s1 l s2, Rec.scan E (Rec.applyHint r.1 .clear).beginEarleme 2 val = pure s1 ∧
          Rec.completeAll E s1 = pure s2.clearHint ∧ Rec.Groups E s1 l s2 ∧ 2 ^ k ≤ l.length := by
  refine ⟨?_, by simp [ladder]; omega, ?_⟩
  · have : ∀ m, ((List.range m).map fun j => j + 1).sum = m * (m + 1) / 2 := by
      intro m
      induction m with
      | zero => rfl
      | succ m ih =>
        rw [List.range_succ, List.map_append, List.sum_append, ih]
        simp only [List.map_cons, List.map_nil, List.sum_cons, List.sum_nil]
        have : (m + 1) * (m + 1 + 1) = m * (m + 1) + 2 * (m + 1) := by
          rw [Nat.mul_add, Nat.mul_comm (m + 1) (m + 1), Nat.add_mul, Nat.add_mul, Nat.mul_add]; omega
        omega
    simp only [ladder, ladderRules, List.length_append, List.length_cons, List.length_nil, List.length_flatMap,
      List.length_map, List.length_range, this]
    omega
  obtain ⟨g, hg⟩ := ladder_built k
  refine ⟨g, hg, ?_⟩
  rintro σ ν E f rfl hleo hF v val hv hval
  have htok : TokensOK (ladder k).numSyms [(.keep, [(1, v)])] := by
    intro st hst q hq
    obtain rfl : st = (.keep, [(1, v)]) := by simpa using hst
    obtain rfl : q = (1, v) := by simpa using hq
    exact ⟨by simp [ladder]; omega, hv⟩
  have hstart : ∀ st ∈ [((.keep, [(1, v)]) : Step)], ∀ t ∈ st.2, t.1 ≠ (ladderRoot k).root := by
    intro st hst q hq
    obtain rfl : st = (.keep, [(1, v)]) := by simpa using hst
    obtain rfl : q = (1, v) := by simpa using hq
    simp [ladderRoot]
  have hno : NoHints [((.keep, [(1, v)]) : Step)] := by
    intro st hst x
    obtain rfl : st = (.keep, [(1, v)]) := by simpa using hst
    simp
  have hpicks : Picks (inputOf [((.keep, [(1, v)]) : Step)]) 0 [1] := ⟨⟨v, by simp [inputOf]⟩, trivial⟩
  have hroot : Derives (rulesOf (ladder k)) 3 ([1] ++ (4 + k) :: [0]) := by
    refine Derives.binary (r := Rule.mk 3 (5 + k) (some 0)) (u := [1, 4 + k]) (v := [0]) ?_ rfl ?_ (.refl 0)
    · exact List.mem_map.2 ⟨{ lhs := 3, rhs := [5 + k, 0], dots := Example.dots3 }, by simp [ladder], rfl⟩
    · refine Derives.binary (r := Rule.mk (5 + k) 1 (some (4 + k))) (u := [1]) ?_ rfl (.refl 1) (.refl _)
      exact List.mem_map.2 ⟨{ lhs := 5 + k, rhs := [1, 4 + k], dots := Example.dots3 }, by simp [ladder], rfl⟩
  have hx : ∀ i, i ≤ k → Derives (rulesOf (ladder k)) 3 ([1] ++ (4 + i) :: [0]) := by
    intro i hi
    simpa using hroot.replace (ladder_climb k (k - i) i (by omega))
  obtain ⟨r, h1, h2⟩ := C05_viable_prefix hg hleo hF htok hstart hno (by simp)
  obtain ⟨r', h3, h4⟩ := C47_climb hg hleo hF htok hstart hno (by simp)
    (U := fun A => if A = 2 then {4} else if A ≤ 3 then ∅ else (Finset.Ioc (A - 4) k).image (4 + ·))
    (p := fun A => if A = 2 then 1 + 2 ^ k else if A ≤ 3 then 1 else 2 ^ (k - (A - 4)))
    (by
      intro A B hB
      by_cases hA : A = 2
      · subst hA
        obtain rfl : B = 4 := by simpa using hB
        refine ⟨?_, by omega, by omega, [1], [0], rfl, hpicks, hx 0 (by omega)⟩
        exact List.mem_map.2 ⟨{ lhs := 4, rhs := [2], origin := some 0, dots := Example.dots3 }, by simp [ladder], rfl⟩
      · rw [if_neg hA] at hB
        by_cases hA3 : A ≤ 3
        · simp [hA3] at hB
        · rw [if_neg hA3] at hB
          obtain ⟨j, hj, rfl⟩ := Finset.mem_image.1 hB
          rw [Finset.mem_Ioc] at hj
          refine ⟨?_, by omega, by omega, [1], [0], rfl, hpicks, hx j hj.2⟩
          refine List.mem_map.2 ⟨CfgRule.mk (5 + (j - 1)) [4 + (A - 4)] (some (j - 1 + (A - 4))) none Example.dots3, ?_, ?_⟩
          · simp only [ladder, List.mem_append]
            exact .inl (.inr (mem_ladderRules.2 ⟨j - 1, A - 4, by omega, by omega, rfl⟩))
          · simp only [ruleOf, Rule.mk.injEq]
            exact ⟨by omega, by simp; omega, rfl⟩)
    (by
      intro A
      by_cases hA : A = 2
      · subst hA; simp
      · simp only [if_neg hA]
        by_cases hA3 : A ≤ 3
        · simp [hA3]
        · simp only [if_neg hA3]
          rw [Finset.sum_image (by intro a _ b _ h; simpa using h)]
          have : ∀ j ∈ Finset.Ioc (A - 4) k, (if 4 + j = 2 then 1 + 2 ^ k else if 4 + j ≤ 3 then 1 else
              2 ^ (k - (4 + j - 4))) = 2 ^ (k - j) := by
            intro j _
            rw [if_neg (by omega), if_neg (by omega)]
            congr 2; omega
          rw [Finset.sum_congr rfl this]
          by_cases hk : A - 4 ≤ k
          · rw [sum_powers k (k - (A - 4)) (A - 4) (by omega)]; omega
          · rw [show k - (A - 4) = 0 by omega]; simp)
    (t := 2) (val := val) (by simp [ladder]; omega) hval
  obtain rfl := pure_inj_M (h1.symm.trans h3)
  have htrue := h2.2 ⟨[1], rfl, hpicks, _, hx 0 (by omega)⟩
  obtain ⟨s1, l, s2, h5, h6, h7, h8⟩ := h4 htrue
  refine ⟨r, h1, htrue, s1, l, s2, h5, h6, h7, ?_⟩
  simp only [if_pos] at h8
  omega

/-- The claim applies to the forest that stores nothing, as an example. -/
example : ∃ g, Built (ladder 10) 15 (ladderRoot 10) g ∧
    ∃ s0 s1 l s2, Rec.scan { g := g, F := nullForest, lookahead := true, leo := false, sorter := Example.sorter } s0 2 0 = pure s1 ∧
      Rec.Groups { g := g, F := nullForest, lookahead := true, leo := false, sorter := Example.sorter } s1 l s2 ∧ 1024 ≤ l.length := by
  obtain ⟨_, _, g, hg, h⟩ := C47_exponential 10
  obtain ⟨r, _, _, s1, l, s2, h1, _, h2, h3⟩ :=
    h (E := { g := g, F := nullForest, lookahead := true, leo := false, sorter := Example.sorter }) (f := ()) rfl rfl
      (nullForest_safeStart _ _) 0 0 (by decide) (by decide)
  exact ⟨g, hg, _, s1, l, s2, h1, h2, h3⟩

end Gearley.Props
