import Verif.Proofs.LRSingle
import Verif.Proofs.Follow
import Verif.Props.Lookahead
import Verif.Props.Size
import Verif.Props.User

/-!
# C65: LR(1) grammars are parsed in linear time

The README of the crate promises linear memory and `O(n log n)` time for LR(1) grammars.
-/

namespace Gearley.Props
open Gearley.Spec Build
variable {σ ν : Type} {U : URules} {N : Names U} {w : WrappedRoot} {g0 n : Nat} {c nulling : Cfg} {X : CfgCrate} {E : Env σ ν} {f : σ}

/-- Factor of the bound in `C65_linear`. -/
def lrCost (syms rules : Nat) : Nat := syms + rules + (2 + 5 * rules) * lrFound syms rules 2

theorem parse_hints {sof : Nat} {u : List Nat} {b : Nat} (h1 : 1 < b) (hb : b < (sof :: u).length) :
    hintsOf true (parseSteps sof u) b = (sof :: u)[b]? := by
  obtain ⟨k, rfl⟩ : ∃ k, b = k + 2 := ⟨b - 2, by omega⟩
  simp only [List.length_cons] at hb
  rw [hintsOf, if_pos rfl, List.getElem?_cons_succ, parseSteps, List.getElem?_cons_succ]
  obtain ⟨st, hst⟩ : ∃ st, (tokSteps 0 u)[k]? = some st := ⟨_, List.getElem?_eq_getElem (by rw [tokSteps_length]; omega)⟩
  obtain ⟨_, _, _, h3⟩ := tokSteps_getElem? 0 u k hst
  have h4 : u[k + 1]? = some u[k + 1] := List.getElem?_eq_getElem (by omega)
  rw [h4] at h3
  rw [hst, h4, Option.bind_some, h3]
  rfl

/-- The bound for `parse`, from what is found. -/
theorem C65_found {P : URules} {ex : Nat → List Nat} {own : Nat → Nat} {plain : Nat → Prop} (hB : Built c n w E.g) (hleo : E.leo = false)
    (hla : E.lookahead = true) (hF : SafeStart E.F f c.rules.length c.numSyms) {toks u : List Nat}
    (hi : Internals E.g toks u) (ht : Terminals c n u) (hlen : u.length + 1 < 2 ^ 64 - 1)
    (ho : UnaryOrdered (rulesOf c) ∨ SingleTrees (rulesOf c) w.root (inputOf (parseSteps w.sof u)))
    (h : LRParse P w.root (rulesOf c) ex own plain (inputOf (parseSteps w.sof u)) (w.sof :: u) E.g.followHas n (hintsOf true (parseSteps w.sof u))) :
    ∃ s res, (Rec.new E.counting (f, 0) >>= fun s => Rec.parse E.counting s toks) = pure (s, res) ∧
      s.forest.2 ≤ lrCost c.numSyms c.rules.length * (u.length + 1) ∧
      (∀ b, res = .ok b → s.medial.itemCount ≤ lrCost c.numSyms c.rules.length * (u.length + 1)) := by
  classical
  obtain ⟨depth, hc⟩ := hB.processed
  have hRl : (rulesOf c).length = c.rules.length := by simp [rulesOf]
  have hs : w.sof < c.numSyms := Nat.lt_of_lt_of_le hB.sof_lt hc.syms_le
  have hlt : ∀ t ∈ u, t < c.numSyms := fun t h => Nat.lt_of_lt_of_le (ht t h).1 hc.syms_le
  have htok : TokensOK c.numSyms (parseSteps w.sof u) := parseSteps_tokens hs hlt
  have hin : HintsIn n (parseSteps w.sof u) := parseSteps_hints fun t h => (ht t h).1
  have hterm : ∀ st ∈ parseSteps w.sof u, (st.2.map (·.1)).Nodup ∧ Terminals c n (st.2.map (·.1)) := by
    intro st hst
    obtain ⟨k, hk⟩ := List.getElem?_of_mem hst
    obtain ⟨⟨v, hv, x, _, hx⟩, _⟩ := parseSteps_get hk
    rw [hx]
    refine ⟨by simp, fun t htm => ?_⟩
    simp only [List.map_cons, List.map_nil, List.mem_singleton] at htm
    subst htm
    rcases List.mem_cons.1 (List.mem_of_getElem? hv) with rfl | hv
    · exact ⟨hB.sof_lt, hB.sofTerm⟩
    · exact ht t hv
  have hRlhs : ∀ r ∈ rulesOf c, r.lhs < c.numSyms := by
    intro r hr
    obtain ⟨cr, hcr, rfl⟩ := List.mem_map.1 hr
    exact hc.lhs_lt cr hcr
  generalize hhint : hintsOf true (parseSteps w.sof u) = hint at h
  have hsyms : ∀ X a b, Found E.g.firstHas E.g.followHas n (rulesOf c) w.root (inputOf (parseSteps w.sof u)) hint X a b → X < c.numSyms := by
    rintro X a b ⟨_, hv⟩
    cases hv with
    | token hm =>
      unfold inputOf at hm
      split at hm
      · rename_i st hst
        exact (htok st (List.mem_of_getElem? hst) _ hm).1
      · cases hm
    | unary hd _ _ => exact hRlhs _ hd
    | binary hd _ _ _ _ => exact hRlhs _ hd
  -- all that is found
  let F : Finset (Nat × Nat × Nat) := (Finset.range c.numSyms ×ˢ Finset.range (u.length + 2) ×ˢ Finset.range (u.length + 2)).filter
    fun p => Found E.g.firstHas E.g.followHas n (rulesOf c) w.root (inputOf (parseSteps w.sof u)) hint p.1 p.2.1 p.2.2
  let T : Nat → Finset (Nat × Nat) := fun b => (F.filter fun p => p.2.2 = b).image fun p => (p.1, p.2.1)
  have hTF : ∀ X a b, Found E.g.firstHas E.g.followHas n (rulesOf c) w.root (inputOf (parseSteps w.sof u)) hint X a b → (X, a) ∈ T b := by
    intro X a b hf
    have hr := h.range hf
    simp only [List.length_cons] at hr
    refine Finset.mem_image.2 ⟨(X, a, b), Finset.mem_filter.2 ⟨Finset.mem_filter.2 ⟨?_, hf⟩, rfl⟩, rfl⟩
    simp only [Finset.mem_product, Finset.mem_range]
    exact ⟨hsyms X a b hf, by omega, by omega⟩
  obtain ⟨r, hr, hcost, hitems⟩ := C53_waiting (T := T) (K := fun _ => c.rules.length) hB hleo hF htok hin (by rw [parseSteps_length]; omega) hterm ho (by
    intro b A a hp hv
    rw [hla, hhint] at hv
    exact hTF A a b ⟨hp, hv⟩) (by
    intro b C m hp hv F' hF'
    rw [hla, hhint] at hv hF'
    have := Finset.card_le_card_of_injOn (s := F') (t := Finset.range (rulesOf c).length) Prod.fst (by
      intro p hp
      obtain ⟨A, B, i1, _⟩ := hF' p hp
      simp only [Finset.coe_range, Set.mem_Iio]
      exact (List.getElem?_eq_some_iff.1 i1).1) (by
      intro p hp q hq e
      obtain ⟨A, B, i1, i2, i3⟩ := hF' p hp
      obtain ⟨A', B', j1, j2, j3⟩ := hF' q hq
      rw [← e, i1, Option.some.injEq, Rule.mk.injEq] at j1
      obtain ⟨rfl, rfl, _⟩ := j1
      exact Prod.ext e (h.waiting hv i1 i2 i3 j2 j3))
    rwa [Finset.card_range, hRl] at this)
  rw [parseSteps_length] at hcost hitems
  -- the bound
  have hFc : F.card ≤ lrFound c.numSyms c.rules.length (u.length + 2) := by
    have := h.card (first := E.g.firstHas) F (fun p hp => (Finset.mem_filter.1 hp).2) hsyms
    rwa [hRl, List.length_cons] at this
  have hTc : ∀ b, (T b).card ≤ (F.filter fun p => p.2.2 = b).card := fun b => Finset.card_image_le
  have hsumT : ∑ b ∈ Finset.range (u.length + 2), (T b).card ≤ F.card := by
    rw [Finset.card_eq_sum_card_fiberwise (s := F) (t := Finset.range (u.length + 2)) (f := fun p => p.2.2) (fun p hp => by
      have hp := (Finset.mem_filter.1 hp).1
      simp only [Finset.mem_product] at hp
      exact hp.2.2)]
    exact Finset.sum_le_sum fun b _ => hTc b
  have hFl : F.card ≤ lrFound c.numSyms c.rules.length 2 * (u.length + 1) := by
    refine hFc.trans ?_
    have e : lrFound c.numSyms c.rules.length 2 * (u.length + 1) = lrFound c.numSyms c.rules.length (2 * (u.length + 1)) := by
      unfold lrFound; ring
    rw [e]
    unfold lrFound
    have : u.length + 2 ≤ 2 * (u.length + 1) := by omega
    gcongr
  have hcostEq : lrCost c.numSyms c.rules.length * (u.length + 1) = (u.length + 1) * (c.numSyms + c.rules.length) +
      (2 + 5 * c.rules.length) * (lrFound c.numSyms c.rules.length 2 * (u.length + 1)) := by unfold lrCost; ring
  have hsumI : c.rules.length * ∑ b ∈ Finset.range (u.length + 2), (T b).card ≤ lrCost c.numSyms c.rules.length * (u.length + 1) := by
    refine (Nat.mul_le_mul_left _ (hsumT.trans hFl)).trans ?_
    rw [hcostEq]
    exact Nat.le_add_left_of_le (Nat.mul_le_mul_right _ (by omega))
  have hsum : ∑ e ∈ Finset.range (u.length + 1), waitCost c.numSyms c.rules.length T (fun _ => c.rules.length) e ≤
      lrCost c.numSyms c.rules.length * (u.length + 1) := by
    have h1 : ∀ e, waitCost c.numSyms c.rules.length T (fun _ => c.rules.length) e =
        (c.numSyms + c.rules.length) + 2 * c.rules.length * (T e).card + (2 + 3 * c.rules.length) * (T (e + 1)).card := by
      intro e
      unfold waitCost
      rw [Finset.sum_const, Nat.nsmul_eq_mul]
      ring
    simp only [h1]
    rw [Finset.sum_add_distrib, Finset.sum_add_distrib, Finset.sum_const, Finset.card_range, Nat.nsmul_eq_mul, ← Finset.mul_sum, ← Finset.mul_sum]
    have h2 : ∑ e ∈ Finset.range (u.length + 1), (T e).card ≤ F.card :=
      le_trans (by rw [Finset.sum_range_succ (n := u.length + 1)]; exact Nat.le_add_right _ _) hsumT
    have h3 : ∑ e ∈ Finset.range (u.length + 1), (T (e + 1)).card ≤ F.card :=
      le_trans (by rw [Finset.sum_range_succ' (n := u.length + 1)]; exact Nat.le_add_right _ _) hsumT
    have h4 := Nat.mul_le_mul_left (2 * c.rules.length) h2
    have h5 := Nat.mul_le_mul_left (2 + 3 * c.rules.length) h3
    have h7 := Nat.mul_le_mul_left (2 + 5 * c.rules.length) hFl
    have h8 : 2 * c.rules.length * F.card + (2 + 3 * c.rules.length) * F.card = (2 + 5 * c.rules.length) * F.card := by ring
    rw [hcostEq]
    omega
  -- `parse` is the session
  obtain ⟨root, rank, g1, hR⟩ := hB.ready
  obtain ⟨s0, s, res, h0, hparse, _⟩ := parse_cases (E := E.counting) hB hleo (counting_safe hF 0) hi ht hlen
  rw [h0, pure_bind] at hr
  refine ⟨s, res, by rw [h0, pure_bind]; exact hparse, ?_⟩
  obtain ⟨m, hm, hml, hmt, _, _⟩ := sessionCount_of_session _ _ hr
  rw [← hR.sof] at hm
  obtain ⟨p1, p2, p3⟩ := parse_spec (E := E.counting) hi hm
  rw [parseSteps_length] at hml hmt
  have hsr : s = r.1 ∧ (r.2 = true ∨ ∃ e, res = .error e) := by
    by_cases h1 : m = u.length + 1
    · refine ⟨?_, .inl (hmt.2 h1)⟩
      have := p1 h1
      rw [hparse] at this
      obtain ⟨b, _, h3⟩ := bind_eq_pure this.symm
      have := pure_inj_M h3
      simp only [Prod.mk.injEq] at this
      exact this.1.symm
    · by_cases h2 : m = 0
      · have := p2 h2
        rw [hparse] at this
        have := pure_inj_M this
        simp only [Prod.mk.injEq] at this
        exact ⟨this.1, .inr ⟨_, this.2⟩⟩
      · obtain ⟨t, _, h3⟩ := p3 (m - 1) (by omega) (by omega)
        rw [hparse] at h3
        have := pure_inj_M h3
        simp only [Prod.mk.injEq] at this
        exact ⟨this.1, .inr ⟨_, this.2⟩⟩
  rw [hsr.1]
  refine ⟨hcost.trans hsum, fun b hb => ?_⟩
  rcases hsr.2 with h1 | ⟨e, h1⟩
  · exact (hitems h1).trans hsumI
  · rw [hb] at h1; cases h1

/-- The FOLLOW sets of the parser contain nothing else than what can follow. -/
def FollowTight (c : Cfg) (w : WrappedRoot) (g : DefaultGrammar) : Prop :=
  ∀ A t x y, Occurs c A → Occurs c t → g.toInternal A = pure (some x) → g.toInternal t = pure (some y) → g.followHas x y →
    ∃ α β, Derives (rulesOf c) w.root (α ++ A :: t :: β)

/-- That is so if the crate computes them by the textbook rules, and no rule is out of reach. -/
theorem FollowTight.of_textbook (hX : CrateOK X) (ht : Textbook X) (hc : BinarizedOK c w) (hr : Reached (rulesOf c) w.root) {g : DefaultGrammar}
    (hg : fromBinarized X c nulling = pure g) : FollowTight c w g := fun A t x y hA hto hx hy hf =>
  (textbook_tables hX ht hc hg hA hto hx hy (by
    unfold DefaultGrammar.followHas at hf
    exact hf)).derives hr

theorem InNumbers.unaryOrdered {toks ext : List Nat} {c' : Cfg} (h : InNumbers U N w g0 c E.g toks ext c' n) (hne : ∀ r ∈ c.rules, r.rhs ≠ [])
    (ho : UnaryDown c E.g) : UnaryOrdered (rulesOf c') := by
  intro r' hr' h1
  obtain ⟨q', hq', rfl⟩ := List.mem_map.1 hr'
  obtain ⟨q, hq, rfl⟩ := List.mem_map.1 (h.perm.mem_iff.1 hq')
  match hr : q.rhs, hne q hq with
  | [B], _ =>
    simp only [ruleOf, renRule, hr, List.map_cons, List.map_nil, List.headD_cons]
    exact ho q hq B hr _ _ (h.known _ ⟨q, hq, .inl rfl⟩) (h.known _ ⟨q, hq, .inr (by rw [hr]; simp)⟩)
  | A :: B :: l, _ => simp [ruleOf, renRule, hr] at h1

theorem ruleOf_renRule {f : Nat → Nat} {r : CfgRule} (h : r.rhs ≠ []) : ruleOf (renRule f r) = (ruleOf r).rename f := by
  match hr : r.rhs, h with
  | x :: l, _ => cases l <;> simp [ruleOf, renRule, Rule.rename, hr]

/-- C65: with look-ahead, `parse` takes linear time for LR(1) grammars. `U` is the user's grammar: every symbol in a rule yields some
string of tokens, and with the rule of the wrapped root it is LR(1); rules may be empty. If the FOLLOW sets are those of the grammar,
rules of the binarized grammar with symbols that only derive the empty string were removed (there are none if there are no such
symbols, `Trimmed.of_live`), and no rule is given twice, then `parse` returns after at most `lrCost syms rules * (k + 1)` operations for `k` tokens, whether it accepts or not. If
every position is read, then the chart has at most that many items. -/
theorem C65_linear (h : UserParser X U N w g0 c nulling E.g) (hk : EmptyKept U N c nulling E.g) (hnd : U.Nodup) (hleo : E.leo = false)
    (hla : E.lookahead = true) (hF : SafeStart E.F f c.rules.length c.numSyms) (hlr : LR1 (augmented U w) w.root)
    (hprod : Spec.Productive U) (htrim : Trimmed U N c) (hfol : FollowTight c w E.g) {toks : List Nat} (ht : Tokens U c toks)
    (hlen : toks.length + 1 < 2 ^ 64 - 1) :
    ∃ s res, (Rec.new E.counting (f, 0) >>= fun s => Rec.parse E.counting s toks) = pure (s, res) ∧
      s.forest.2 ≤ lrCost c.numSyms c.rules.length * (toks.length + 1) ∧
      (∀ b, res = .ok b → s.medial.itemCount ≤ lrCost c.numSyms c.rules.length * (toks.length + 1)) := by
  obtain ⟨ext, c', n, hI⟩ := h.numbered hk ht
  have hfg := ext_int ext
  have hcr : c'.rules.length = c.rules.length := by rw [hI.perm.length_eq, List.length_map]
  have hne0 : ∀ r ∈ c.rules, r.rhs ≠ [] := by
    rintro r hr h'; have := h.ok.len r hr; simp [h'] at this
  have hB : Built c' n (renRoot (intNum ext) w) E.g := ⟨hI.prepared, hI.acyclic h.acyclic⟩
  have hF' : SafeStart E.F f c'.rules.length c'.numSyms := by
    obtain ⟨a1, a2, a3, a4, a5, a6, a7⟩ := hF
    exact ⟨a1, a2, a3, a4, a5, by rw [hcr]; exact a6, fun s v hs => a7 s v (Nat.lt_of_lt_of_le hs hI.numSyms)⟩
  obtain ⟨depth, hP⟩ := hI.prepared.processed
  have hin := h.inner
  -- symbols
  have plain : ∀ {s : Nat}, PlainSym N g0 s → PlainSym (N.rename hfg) (intNum ext g0) (intNum ext s) := by
    rintro s ⟨h1, h2⟩
    refine ⟨by simpa [Names.rename, hfg] using h1, fun e => h2 ?_⟩
    rw [← hfg s, e, hfg]
  have hsofR : Terminal (rulesOf c) w.sof := h.wrap.sof
  have heofR : Terminal (rulesOf c) w.eof := h.wrap.eof
  have hrs : w.root ≠ w.sof := hsofR _ h.rule
  have hre : w.root ≠ w.eof := heofR _ h.rule
  obtain ⟨g1, ⟨hr1, hr2⟩, hr3, _, hr5⟩ := h.wrap.rules
  have hg : g1 = g0 := by
    have := hr2 _ h.rule rfl
    simp only [Rule.mk.injEq, true_and, and_true] at this
    exact this.symm
  subst hg
  have hfree : ∀ s, s = w.sof ∨ s = w.eof → s ≠ w.root ∧ ∀ r ∈ U, r.1 ≠ s := by
    rintro s (rfl | rfl)
    · exact ⟨fun e => hrs e.symm, fun r hr => ((h.bin.fresh _ (.inr (.inr (.inl rfl)))).2 r hr).1⟩
    · exact ⟨fun e => hre e.symm, fun r hr => ((h.bin.fresh _ (.inr (.inr (.inr rfl)))).2 r hr).1⟩
  have hrootU : ∀ r ∈ U, w.root ∉ r.2 := fun r hr => ((h.bin.fresh _ (.inl rfl)).2 r hr).2
  have hprodA : Spec.Productive (augmented U w) := hprod.augmented hrootU h.root hin.2.1 hfree
  have hplain_sof : PlainSym N g1 w.sof := ⟨(h.bin.fresh _ (.inr (.inr (.inl rfl)))).1, fun e => h.wrap.ne g1 h.rule e.symm⟩
  have hplain_root : PlainSym N g1 w.root := by
    refine ⟨(h.bin.fresh _ (.inl rfl)).1, fun e => ?_⟩
    have := hr2 ⟨g1, w.sof, some w.innerRoot⟩ hr3 e.symm
    simp only [Rule.mk.injEq, Option.some.injEq] at this
    exact h.wrap.ne g1 h.rule this.2.1.symm
  have hplain_tok : ∀ t ∈ toks, PlainSym N g1 t := by
    intro t htm
    obtain ⟨_, ⟨r, hr, h2⟩, _⟩ := ht t htm
    exact h.bin.plain_rhs hr h2
  have htokA : ∀ t ∈ w.sof :: toks, UTerminal (augmented U w) t := by
    intro t htm r hr e
    rcases List.mem_cons.1 htm with rfl | htm
    · rcases List.mem_cons.1 hr with rfl | hr
      · exact hrs e
      · exact (hfree _ (.inl rfl)).2 r hr e
    · obtain ⟨h1, ⟨r', hr', h2⟩, _⟩ := ht t htm
      rcases List.mem_cons.1 hr with rfl | hr
      · simp only at e
        subst e
        exact hrootU r' hr' h2
      · exact h1 r hr e
  have hoccsof : Occurs c w.sof := by
    obtain ⟨q, hq, e⟩ := List.mem_map.1 hr3
    refine ⟨q, hq, .inr ?_⟩
    simp only [ruleOf, Rule.mk.injEq] at e
    match hqr : q.rhs, hne0 q hq with
    | x :: l, _ =>
      rw [hqr] at e
      simp only [List.headD_cons] at e
      simp [e.2.1]
  have hocc : ∀ t ∈ w.sof :: toks, Occurs c t := by
    intro t htm
    rcases List.mem_cons.1 htm with rfl | htm
    · exact hoccsof
    · exact (ht t htm).2.2
  have hmap : (renRoot (intNum ext) w).sof :: toks.map (intNum ext) = (w.sof :: toks).map (intNum ext) := rfl
  have hren : ∀ r ∈ rulesOf c, r.rename (intNum ext) ∈ rulesOf c' := by
    intro r hr
    obtain ⟨q, hq, rfl⟩ := List.mem_map.1 hr
    rw [← ruleOf_renRule (hne0 q hq)]
    exact List.mem_map_of_mem (hI.perm.mem_iff.2 (List.mem_map_of_mem hq))
  -- the grammar
  have hL : LRParse (augmented (URules.rename (intNum ext) U) (renRoot (intNum ext) w)) (renRoot (intNum ext) w).root (rulesOf c')
      (exOf (N.rename hfg) (renRoot (intNum ext) w) (intNum ext g1)) (ownOf (N.rename hfg) (renRoot (intNum ext) w) (intNum ext g1))
      (PlainSym (N.rename hfg) (intNum ext g1)) (inputOf (parseSteps (renRoot (intNum ext) w).sof (toks.map (intNum ext))))
      ((renRoot (intNum ext) w).sof :: toks.map (intNum ext)) E.g.followHas n
      (hintsOf true (parseSteps (renRoot (intNum ext) w).sof (toks.map (intNum ext)))) := by
    have hplainW : ∀ t ∈ (renRoot (intNum ext) w).sof :: toks.map (intNum ext), PlainSym (N.rename hfg) (intNum ext g1) t := by
      rw [hmap]
      intro t' ht'
      obtain ⟨t, htm, rfl⟩ := List.mem_map.1 ht'
      rcases List.mem_cons.1 htm with rfl | htm
      · exact plain hplain_sof
      · exact plain (hplain_tok t htm)
    -- symbols of the user's grammar are small
    have hsmall : ∀ r ∈ rulesOf c', ∀ Y, PlainSym (N.rename hfg) (intNum ext g1) Y → (Y = r.lhs ∨ Y = r.rhs0) → Y < n := by
      intro r hr Y hY he
      obtain ⟨q, hq, rfl⟩ := List.mem_map.1 hr
      refine hI.bin.plain_lt hP hY ?_
      rcases he with rfl | rfl
      · exact hP.lhs_lt q hq
      · have hl := hP.len q hq
        match hqr : q.rhs with
        | [] => rw [hqr] at hl; simp at hl
        | x :: l =>
          have := hP.rhs_lt q hq x (by rw [hqr]; simp)
          simpa [ruleOf, hqr] using this
    refine { lr := ?_, bin := hI.bin.leftBin hI.wrap (fun hn => hn.rename) hI.rule (plain ⟨hin.1, hin.2.2⟩),
             prod := Spec.Productive.rename hfg hprodA, input := ?_, start := plain hplain_root, small := hsmall, live := ?_, follow := ?_,
             hints := fun b h1 h2 => parse_hints h1 h2, plainW := hplainW }
    · -- LR(1)
      refine ⟨LR1.rename hfg hlr, ?_⟩
      intro r' hr' hm
      obtain ⟨r, hr, rfl⟩ := List.mem_map.1 (show r' ∈ URules.rename (intNum ext) (augmented U w) from hr')
      obtain ⟨s, hs, e⟩ := List.mem_map.1 hm
      have e : s = w.root := by rw [← hfg s, e]; exact hfg _
      subst e
      rcases List.mem_cons.1 hr with rfl | hr
      · simp only [List.mem_cons, List.not_mem_nil, or_false] at hs
        rcases hs with e | e | e
        · exact hrs e
        · exact hin.2.1 e.symm
        · exact hre e
      · exact hrootU r hr hs
    · -- the input
      refine ⟨?_, ?_⟩
      · rw [hmap]
        intro t' ht'
        obtain ⟨t, htm, rfl⟩ := List.mem_map.1 ht'
        exact (UTerminal.iff hfg (U := augmented U w)).2 (htokA t htm)
      · intro e A v hm
        unfold inputOf at hm
        split at hm
        · rename_i st hst
          obtain ⟨⟨x, hx, _, _, e2⟩, _⟩ := parseSteps_get hst
          rw [e2] at hm
          simp only [List.mem_singleton, Prod.mk.injEq] at hm
          rw [hm.1]
          exact ⟨hx, hplainW x (List.mem_of_getElem? hx)⟩
        · cases hm
    · -- one-symbol rules that are not filtered
      intro Y B hr hnB
      obtain ⟨g2, ⟨_, w2⟩, _, _, w4⟩ := hI.wrap.rules
      have hg2 : g2 = intNum ext g1 := by
        have := w2 _ hI.rule rfl
        simp only [Rule.mk.injEq, true_and, and_true] at this
        exact this.symm
      subst hg2
      obtain ⟨k, A, rhs, j, y, k1, k2, k3, k4, k5, k6, q', k7, k8, k9⟩ := hI.bin.unfiltered hP (fun r hr e => by
          rcases w4 r hr e with rfl | rfl <;> rfl) (fun r hr e => by rw [w2 r hr e]) hr hnB
        (fun s hs hlt => hI.bin.plain_lt hP hs hlt) (plain hplain_sof) (fun r hr e => by
          have h1 := w2 _ (List.mem_map_of_mem hr) e
          have h2 := hP.len r hr
          match hrr : r.rhs with
          | [] => rw [hrr] at h2; simp at h2
          | [x] => simp [ruleOf, hrr] at h1
          | x :: y :: l => rw [hrr] at h2; simp at h2 ⊢; omega)
      -- in the numbers of the user
      obtain ⟨q, hq, rfl⟩ := List.mem_map.1 (hI.perm.mem_iff.1 k7)
      obtain ⟨B0, yl, hql, rfl, k10⟩ := List.map_eq_cons_iff.1 (show q.rhs.map (intNum ext) = [B, y] from k9)
      obtain ⟨y0, l0, rfl, rfl, k11⟩ := List.map_eq_cons_iff.1 k10
      have : l0 = [] := List.map_eq_nil_iff.1 k11
      subst this
      have hparts : N.parts B0 ≠ none := by simpa [Names.rename, hfg] using k5
      have hexp : Expected U N q := by
        have hqr : ruleOf q = ⟨q.lhs, B0, some y0⟩ := by simp [ruleOf, hql]
        rcases h.bin.sound q hq with e | e | e
        · have := hr2 _ (List.mem_map_of_mem hq) e
          rw [hqr] at this
          simp only [Rule.mk.injEq] at this
          rw [this.2.1] at hparts
          exact absurd (h.bin.fresh g1 (.inr (.inl rfl))).1 hparts
        · have := hr5 _ (List.mem_map_of_mem hq) e
          rw [hqr] at this
          simp only [Rule.mk.injEq, reduceCtorEq, and_false, or_false] at this
          rw [this.2.1] at hparts
          exact absurd hplain_sof.1 hparts
        · exact e
      have hy0U : ∃ r ∈ U, y0 ∈ r.2 := by
        generalize hqq : q = q0 at hexp
        cases hexp with
        | single _ => subst hqq; simp at hql
        | dropRight _ _ _ _ => subst hqq; simp at hql
        | dropLeft _ _ _ _ => subst hqq; simp at hql
        | both hk _ hy =>
          subst hqq
          simp only [List.cons.injEq, and_true] at hql
          rw [← hql.2]
          exact ⟨_, List.mem_of_getElem? hk, List.mem_of_getElem? hy⟩
      obtain ⟨r0, hr0, hy0⟩ := hy0U
      have hlive := htrim q hq hexp y0 (by rw [hql]; simp)
      rw [(N.user r0 hr0).2 y0 hy0] at hlive
      obtain ⟨a, u, hu⟩ := hlive
      have hu' := (yields_augmented (w := w) hrootU hu (fun e => hrootU r0 hr0 (e ▸ hy0))).rename hfg
      obtain ⟨hu1, hu2⟩ := yields_steps hu'
      -- the rest of the rule
      have hkU := List.mem_of_getElem? k1
      have hsplit : rhs = rhs.take j ++ intNum ext y0 :: rhs.drop (j + 1) := by
        obtain ⟨hy1, hy2⟩ := List.getElem?_eq_some_iff.1 k3
        rw [← hy2, List.cons_getElem_drop_succ, List.take_append_drop]
      have hmem : (A, rhs) ∈ augmented (URules.rename (intNum ext) U) (renRoot (intNum ext) w) := List.mem_cons_of_mem _ hkU
      obtain ⟨v, hv1, hv2⟩ := (Spec.Productive.rename hfg hprodA).all (r := (A, rhs)) hmem (rhs.drop (j + 1)) (fun s hs => List.mem_of_mem_drop hs)
      have hown : ownOf (N.rename hfg) (renRoot (intNum ext) w) (intNum ext g1) Y = A := by
        rw [k6]
        have hjl := (List.getElem?_eq_some_iff.1 k3).1
        split
        · exact (hI.bin.plain_lhs hkU).ex_own.2
        · exact (hI.bin.name_ex k1 (by omega) (by omega)).2.2
      refine ⟨intNum ext y0 :: rhs.drop (j + 1), (a :: u).map (intNum ext) ++ v, ?_, ?_, hu1.append hv1, by simp⟩
      · rw [hown, k4, (hI.bin.pre_ex k1 k2 k3).1, ← hsplit]
        exact hmem
      · exact (hv2.left [intNum ext y0]).trans (hu2.right hv1)
    · -- what follows
      intro r hr _ t' ht' hf
      rw [hmap] at ht'
      obtain ⟨t, htm, rfl⟩ := List.mem_map.1 ht'
      obtain ⟨q', hq', rfl⟩ := List.mem_map.1 hr
      obtain ⟨q, hq, rfl⟩ := List.mem_map.1 (hI.perm.mem_iff.1 hq')
      obtain ⟨α, β, hd⟩ := hfol q.lhs t _ _ ⟨q, hq, .inl rfl⟩ (hocc t htm) (hI.known _ ⟨q, hq, .inl rfl⟩) (hI.known _ (hocc t htm)) hf
      have := Derives.rename hren hd
      rw [List.map_append] at this
      exact ⟨_, _, this⟩
  -- nothing is found twice
  have hsingle : SingleTrees (rulesOf c') (renRoot (intNum ext) w).root
      (inputOf (parseSteps (renRoot (intNum ext) w).sof (toks.map (intNum ext)))) := by
    refine hL.lr.single hI.bin hL.bin hL.prod hL.input ?_ hL.start hI.wrap hI.rule hP.len ?_ ?_ ?_
    · intro e A v v' hm hm'
      unfold inputOf at hm hm'
      split at hm
      · rename_i st hst
        obtain ⟨⟨x, hx, _, _, e2⟩, _⟩ := parseSteps_get hst
        rw [hst] at hm'
        simp only at hm'
        rw [e2] at hm hm'
        simp only [List.mem_singleton, Prod.mk.injEq] at hm hm'
        rw [hm.2, hm'.2]
      · cases hm
    · exact ⟨fun e => hin.2.1 (by rw [← hfg w.innerRoot, show intNum ext w.innerRoot = intNum ext w.root from e, hfg]),
        fun e => hin.2.2 (by rw [← hfg w.innerRoot, show intNum ext w.innerRoot = intNum ext g1 from e, hfg])⟩
    · refine hnd.map fun a b e => ?_
      have hinj : Function.Injective (intNum ext) := Function.LeftInverse.injective hfg
      simp only [Prod.mk.injEq] at e
      exact Prod.ext (hinj e.1) (hinj.list_map e.2)
    · intro hm
      obtain ⟨t, htm, e⟩ := List.mem_map.1 (show intNum ext w.eof ∈ toks.map (intNum ext) from hm)
      have e : t = w.eof := by rw [← hfg t, e, hfg]
      subst e
      obtain ⟨_, ⟨r, hr, h2⟩, _⟩ := ht _ htm
      exact ((h.bin.fresh _ (.inr (.inr (.inr rfl)))).2 r hr).2 h2
  obtain ⟨s, res, h1, h2, h2'⟩ := C65_found hB hleo hla hF' hI.internals hI.terminals (by rwa [List.length_map]) (.inr hsingle) hL
  have hle : lrCost c'.numSyms c'.rules.length * ((toks.map (intNum ext)).length + 1) ≤ lrCost c.numSyms c.rules.length * (toks.length + 1) := by
    rw [List.length_map, hcr]
    refine Nat.mul_le_mul_right _ ?_
    unfold lrCost lrFound
    have h3 := hI.numSyms
    gcongr
  exact ⟨s, res, h1, h2.trans hle, fun b hb => (h2' b hb).trans hle⟩

/-- C65: linear memory under the same conditions. `m` measures forests, and an operation adds at most `K`: for the simple bocage the
number of nodes and 1, for the compact bocage the number of bytes and 9 (`C54_forests`). -/
theorem C65_memory {m : σ → Nat} {K : Nat} (h : UserParser X U N w g0 c nulling E.g) (hk : EmptyKept U N c nulling E.g) (hnd : U.Nodup)
    (hleo : E.leo = false) (hla : E.lookahead = true) (hF : SafeStart E.F f c.rules.length c.numSyms) (hg : Grows E.F m K)
    (hlr : LR1 (augmented U w) w.root) (hprod : Spec.Productive U) (htrim : Trimmed U N c) (hfol : FollowTight c w E.g) {toks : List Nat}
    (ht : Tokens U c toks) (hlen : toks.length + 1 < 2 ^ 64 - 1) :
    ∃ s res, (Rec.new E f >>= fun s => Rec.parse E s toks) = pure (s, res) ∧
      m s.forest ≤ m f + K * (lrCost c.numSyms c.rules.length * (toks.length + 1)) ∧
      (∀ b, res = .ok b → s.medial.itemCount ≤ lrCost c.numSyms c.rules.length * (toks.length + 1)) := by
  obtain ⟨s, res, h1, h2, h3⟩ := C65_linear h hk hnd hleo hla hF hlr hprod htrim hfol ht hlen
  obtain ⟨⟨s', res'⟩, h4, h5, h6⟩ := (parse_counted hg E rfl f 0 toks).returns_left h1
  simp only [Prod.mk.injEq] at h5
  refine ⟨s', res', h4, (h6 rfl).trans (Nat.add_le_add_left (Nat.mul_le_mul_left _ h2) _), fun b hb => ?_⟩
  rw [h5.1]
  exact h3 b (h5.2 ▸ hb)

/-- C65: LR(1) grammars are unambiguous. If no rule is given twice, then a string of tokens has at most one derivation tree, so the
forest made by `parse` stands for one tree. -/
theorem C65_unambiguous (hlr : LR1 (augmented U w) w.root) (hnd : U.Nodup)
    (hnew : ∀ s, s = w.root ∨ s = w.sof ∨ s = w.eof → ∀ r ∈ U, r.1 ≠ s ∧ s ∉ r.2) (hroot : w.root ∉ [w.sof, w.innerRoot, w.eof])
    {toks : List Nat} (ht : ∀ t ∈ toks, UTerminal U t ∧ t ≠ w.root) {t t' : UTree} (h : UTreeOf U (tokInput toks) t w.innerRoot 0 toks.length)
    (h' : UTreeOf U (tokInput toks) t' w.innerRoot 0 toks.length) : t = t' := by
  simp only [List.mem_cons, List.not_mem_nil, or_false, not_or] at hroot
  have hG : LRGrammar (augmented U w) w.root := by
    refine ⟨hlr, fun r hr hm => ?_⟩
    rcases List.mem_cons.1 hr with rfl | hr
    · simp only [List.mem_cons, List.not_mem_nil, or_false] at hm
      rcases hm with e | e | e
      · exact hroot.1 e
      · exact hroot.2.1 e
      · exact hroot.2.2 e
    · exact (hnew _ (.inl rfl) r hr).2 hm
  have htok : ∀ t, t ≠ w.root → UTerminal U t → UTerminal (augmented U w) t := by
    intro t h1 h2 r hr e
    rcases List.mem_cons.1 hr with rfl | hr
    · exact h1 e.symm
    · exact h2 r hr e
  have heof : Toks (augmented U w) [w.eof] := by
    intro t htm
    cases List.mem_singleton.1 htm
    exact htok _ (fun e => hroot.2.2 e.symm) fun r hr => (hnew _ (.inr (.inr rfl)) r hr).1
  have hmem : ∀ e A v, (A, v) ∈ tokInput toks e → toks[e]? = some A ∧ v = e % 2 ^ 32 := by
    intro e A v hm
    unfold tokInput at hm
    split at hm
    · rename_i x hx
      simp only [List.mem_singleton, Prod.mk.injEq] at hm
      rw [hm.1]
      exact ⟨hx, hm.2⟩
    · cases hm
  have := kids_unique (U := U) (inp := tokInput toks) (W := toks) hG (fun r hr => List.mem_cons_of_mem _ hr) hnd
    (fun t htm => htok t (ht t htm).2 (ht t htm).1) (fun e A v hm => (hmem e A v hm).1)
    (fun e A v v' hm hm' => (hmem e A v hm).2.trans (hmem e A v' hm').2.symm) [w.sof] _ (Nat.le_refl _) (γ := [w.sof]) (φ := [w.innerRoot]) (x := [w.eof])
    (Nat.zero_le _) heof (by
      have := RStep.mk (P := augmented U w) (A := w.root) (β := [w.sof, w.innerRoot, w.eof]) (γ := []) (x := []) (List.mem_cons_self ..) (by simp)
      exact .single (by simpa using this)) (by simpa using Relation.ReflTransGen.refl) (.cons h .nil) (.cons h' .nil)
  simpa using this

end Gearley.Props
