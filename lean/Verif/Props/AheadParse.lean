import Verif.Props.Ahead
import Verif.Props.CyclicParse

/-!
# C66: `parse`, with whatever cycles and with the hints it gives itself

`C66_diverges_iff` and `C66_through_iff` are about sessions. Here they are used for `parse`: exactly when it returns, and exactly
where it reports an error.
-/

namespace Gearley.Props
open Gearley Gearley.Spec

variable {σ ν : Type} {E : Env σ ν} {c : Cfg} {n : Nat} {w : WrappedRoot} {f : σ}

/-! ### What is found up to a position does not depend on what comes after it -/

/-- The same but for the input from `N` on and the hints after `N`. -/
structure SameTo (N : Nat) (G H : Guided) : Prop where
  rules : G.rules = H.rules
  start : G.start = H.start
  syms : G.syms = H.syms
  first : G.first = H.first
  follow : G.follow = H.follow
  inp : ∀ e, e < N → G.inp e = H.inp e
  hint : ∀ k, k ≤ N → G.hint k = H.hint k

theorem SameTo.symm {N : Nat} {G H : Guided} (h : SameTo N G H) : SameTo N H G :=
  ⟨h.rules.symm, h.start.symm, h.syms.symm, h.first.symm, h.follow.symm, fun e he => (h.inp e he).symm,
    fun k hk => (h.hint k hk).symm⟩

theorem SameTo.enters {N : Nat} {G H : Guided} (h : SameTo N G H) {b B C : Nat} (hb : b ≤ N) (he : G.Enters b B C) :
    H.Enters b B C := by
  rw [Guided.Enters, ← h.syms, ← h.first, ← h.hint b hb]
  exact he

theorem SameTo.ends {N : Nat} {G H : Guided} (h : SameTo N G H) {b A : Nat} (hb : b ≤ N) (he : G.Ends b A) : H.Ends b A := by
  rw [Guided.Ends, ← h.syms, ← h.follow, ← h.hint b hb]
  exact he

theorem SameTo.found {N : Nat} {G H : Guided} (h : SameTo N G H) {b A a : Nat} {t : PTree} (hf : G.Found b A a t) :
    b ≤ N → H.Found b A a t := by
  induction hf using Guided.Found.rec (motive_1 := fun a A _ => a ≤ N → H.Pred a A) with
  | start =>
    rw [h.start]
    exact .start
  | corner _ hc ih hb => exact .corner (ih hb) (h.rules ▸ hc)
  | next hR _ hf he ih1 ih2 hb =>
    have := hf.tree.lt
    exact .next (h.rules ▸ hR) (ih1 (by omega)) (ih2 hb) (h.enters hb he)
  | @token A v e hm => exact fun hb => .token (h.inp e (by omega) ▸ hm)
  | unary hR _ hf he ih1 ih2 =>
    intro hb
    have := hf.tree.lt
    exact .unary (h.rules ▸ hR) (ih1 (by omega)) (ih2 hb) (he.imp (fun e => h.syms ▸ e) fun e => h.ends hb e)
  | binary hR _ hf he hf2 hend ih1 ih2 ih3 =>
    intro hb
    have := hf.tree.lt
    have := hf2.tree.lt
    exact .binary (h.rules ▸ hR) (ih1 (by omega)) (ih2 (by omega)) (h.enters (by omega) he) (ih3 hb) (h.ends hb hend)

theorem SameTo.pred {N : Nat} {G H : Guided} (h : SameTo N G H) {a A : Nat} (hp : G.Pred a A) : a ≤ N → H.Pred a A := by
  induction hp using Guided.Pred.rec (motive_2 := fun _ _ _ _ _ => True) with
  | start =>
    intro _
    rw [h.start]
    exact .start
  | corner _ hc ih => exact fun hb => .corner (ih hb) (h.rules ▸ hc)
  | next hR _ hf he ih1 =>
    intro hb
    have := hf.tree.lt
    exact .next (h.rules ▸ hR) (ih1 (by omega)) (h.found hf hb) (h.enters hb he)
  | token => trivial
  | unary => trivial
  | binary => trivial

theorem SameTo.lives {N : Nat} {G H : Guided} (h : SameTo N G H) {b : Nat} (hb : b ≤ N) (hl : G.Lives b) : H.Lives b := by
  rcases hl with ⟨d, a, t, A, B, C, hR, hp, hf, he⟩ | ⟨A, a, d, t, hf⟩
  · have := hf.tree.lt
    exact .inl ⟨d, a, t, A, B, C, h.rules ▸ hR, h.pred hp (by omega), h.found hf hb, h.enters hb he⟩
  · exact .inr ⟨A, a, d, t, h.found hf hb⟩

theorem asked_take (E : Env σ ν) (c : Cfg) (n : Nat) (w : WrappedRoot) (steps : List Step) (m : Nat) :
    SameTo m (asked E c n w (steps.take m)) (asked E c n w steps) := by
  refine ⟨rfl, rfl, rfl, rfl, rfl, fun e he => ?_, fun k hk => ?_⟩
  · simp only [asked, inputOf, List.getElem?_take, if_pos he]
  · cases k with
    | zero => rfl
    | succ k => simp only [asked, hintsOf, List.getElem?_take, if_pos (show k < m by omega)]

/-- `parse` on a fresh recognizer, with whatever cycles the grammar has. It diverges exactly if, at some position, an expected
symbol that is found derives itself with one-symbol rules that the next token lets end. Otherwise it returns. It returns a
verdict exactly if some rule is entered or completed after the last token. It reports the start marker exactly if nothing is
entered or completed after it, and the token with the number `i` exactly if something is before this token and nothing is
after it. -/
theorem C66_parse (hB : Prepared c n w E.g) (hleo : E.leo = false) (hF : SafeStart E.F f c.rules.length c.numSyms)
    {toks u : List Nat} (hi : Internals E.g toks u) (ht : Terminals c n u) (hlen : u.length + 1 < 2 ^ 64 - 1) :
    ∃ s0, Rec.new E f = pure s0 ∧
      (Rec.parse E s0 toks = diverge ↔ ∃ k, k ≤ u.length + 1 ∧ (asked E c n w (parseSteps w.sof u)).Loops k) ∧
      (Rec.parse E s0 toks ≠ diverge → (asked E c n w (parseSteps w.sof u)).Lives (u.length + 1) →
        ∃ s b, Rec.parse E s0 toks = pure (s, .ok b) ∧ (b = true ↔ Derives (rulesOf c) w.root (w.sof :: u ++ [w.eof]))) ∧
      (Rec.parse E s0 toks ≠ diverge → ¬ (asked E c n w (parseSteps w.sof u)).Lives 1 →
        ∃ s, Rec.parse E s0 toks = pure (s, .error (.parse [w.sof] 0))) ∧
      (Rec.parse E s0 toks ≠ diverge → ∀ i, i < u.length → (asked E c n w (parseSteps w.sof u)).Lives (i + 1) →
        ¬ (asked E c n w (parseSteps w.sof u)).Lives (i + 2) →
        ∃ s t, toks[i]? = some t ∧ Rec.parse E s0 toks = pure (s, .error (.parse [t] i))) := by
  obtain ⟨root, g0, hR⟩ := hB.ready0
  obtain ⟨depth, hc⟩ := hB.processed
  obtain ⟨s0, h1⟩ := new_returns0 hB hleo hF
  have hs : w.sof < c.numSyms := Nat.lt_of_lt_of_le hB.sof_lt hc.syms_le
  have hlt : ∀ t ∈ u, t < c.numSyms := fun t h => Nat.lt_of_lt_of_le (ht t h).1 hc.syms_le
  have htok : TokensOK c.numSyms (parseSteps w.sof u) := parseSteps_tokens hs hlt
  have hin : HintsIn n (parseSteps w.sof u) := parseSteps_hints fun t h => (ht t h).1
  have hpl : (parseSteps w.sof u).length = u.length + 1 := parseSteps_length
  obtain ⟨hd, hr⟩ := C66_diverges_iff hB hleo hF htok hin (by rw [hpl]; omega)
  rw [hpl] at hd
  rw [h1, pure_bind] at hd hr
  have hacc := safe_accept' (lax := True) hleo hR hF (steps := parseSteps w.sof u) htok hin (by simp [parseSteps])
    (by rw [parseSteps_length]; exact hlen) (fun _ => parseSteps_honest ht) (.inl trivial)
  rw [h1, pure_bind, parseSteps_accepts hR] at hacc
  -- if the session does not diverge, it stops after `m` positions, and `parse` does what is said for `m`
  have key : Rec.session E (parseSteps w.sof u) s0 ≠ diverge → ∃ s m, m ≤ u.length + 1 ∧
      (0 < m → (asked E c n w (parseSteps w.sof u)).Lives m) ∧
      (m < u.length + 1 → ¬ (asked E c n w (parseSteps w.sof u)).Lives (m + 1)) ∧
      (m = u.length + 1 → ∃ b, Rec.parse E s0 toks = pure (s, .ok b) ∧
        (b = true ↔ Derives (rulesOf c) w.root (w.sof :: u ++ [w.eof]))) ∧
      (m = 0 → Rec.parse E s0 toks = pure (s, .error (.parse [w.sof] 0))) ∧
      ∀ k, m = k + 1 → k ≠ u.length → ∃ t, toks[k]? = some t ∧ Rec.parse E s0 toks = pure (s, .error (.parse [t] k)) := by
    intro hnd
    obtain ⟨⟨s, ok⟩, h2⟩ := hr hnd
    obtain ⟨m, hm, hml, hmt, hmk, hmf⟩ := sessionCount_of_session _ _ h2
    rw [hpl] at hml hmt hmf
    rw [← hR.sof] at hm
    obtain ⟨p1, p2, p3⟩ := parse_spec hi hm
    rw [hR.sof] at p2
    have hat : ∀ k s' b, 0 < k → k ≤ u.length + 1 → Rec.session E ((parseSteps w.sof u).take k) s0 = pure (s', b) →
        (b = true ↔ (asked E c n w (parseSteps w.sof u)).Lives k) := by
      intro k s' b hk0 hk h
      have hkl : ((parseSteps w.sof u).take k).length = k := by rw [List.length_take, hpl]; omega
      have := C66_through_iff hB hleo hF (tokensOK_take (k := k) htok)
        (fun st hst => hin st (List.mem_of_mem_take hst)) (by rw [hkl]; omega)
        (by intro h0; rw [h0] at hkl; simp at hkl; omega) (r := (s', b)) (by rw [h1, pure_bind]; exact h)
      rw [hkl] at this
      have hsame := asked_take E c n w (parseSteps w.sof u) k
      exact this.trans ⟨hsame.lives (Nat.le_refl _), hsame.symm.lives (Nat.le_refl _)⟩
    refine ⟨s, m, hml, fun h0 => ?_, fun h0 => ?_, fun h0 => ?_, p2, p3⟩
    · obtain ⟨s', hs'⟩ := hmk m (Nat.le_refl _)
      exact (hat m s' true h0 hml hs').1 rfl
    · intro hl
      have := (hat (m + 1) s false (by omega) (by omega) (hmf h0)).2 hl
      simp at this
    · obtain ⟨b, hb, hb'⟩ := (hacc.of_eq h2).1 (hmt.2 h0)
      have p1 := p1 h0
      simp only at hb p1
      rw [hb, pure_bind] at p1
      exact ⟨b, p1, hb'⟩
  have hpd : Rec.parse E s0 toks = diverge ↔ Rec.session E (parseSteps w.sof u) s0 = diverge := by
    constructor
    · intro hp
      by_contra hnd
      obtain ⟨s, m, hml, -, -, h2, h3, h4⟩ := key hnd
      by_cases hm : m = u.length + 1
      · obtain ⟨b, h2, _⟩ := h2 hm
        exact diverge_ne_pure (hp.symm.trans h2)
      · cases m with
        | zero => exact diverge_ne_pure (hp.symm.trans (h3 rfl))
        | succ k =>
          obtain ⟨t, _, h4⟩ := h4 k rfl (by omega)
          exact diverge_ne_pure (hp.symm.trans h4)
    · intro h
      exact parse_diverges hi (by rw [hR.sof]; exact h)
  refine ⟨s0, h1, hpd.trans hd, ?_, ?_, ?_⟩
  · intro hnd hl
    obtain ⟨s, m, hml, h5, h6, h2, h3, h4⟩ := key (mt hpd.2 hnd)
    have hm : m = u.length + 1 := by
      by_contra hne
      exact h6 (by omega) (hl.before (by omega) (by omega))
    exact ⟨s, h2 hm⟩
  · intro hnd hl
    obtain ⟨s, m, hml, h5, h6, h2, h3, h4⟩ := key (mt hpd.2 hnd)
    have hm : m = 0 := by
      by_contra hne
      exact hl ((h5 (by omega)).before (by omega) (by omega))
    exact ⟨s, h3 hm⟩
  · intro hnd i hiu hl hl'
    obtain ⟨s, m, hml, h5, h6, h2, h3, h4⟩ := key (mt hpd.2 hnd)
    have hm1 : i + 1 ≤ m := by
      by_contra hne
      exact h6 (by omega) (hl.before (by omega) (by omega))
    have hm2 : m ≤ i + 1 := by
      by_contra hne
      exact hl' ((h5 (by omega)).before (by omega) (by omega))
    obtain ⟨t, h7, h8⟩ := h4 i (by omega) (by omega)
    exact ⟨s, t, h7, h8⟩

/-! ### The grammar `S ::= S | a`: the second token keeps `parse` from diverging -/

section
open Gearley.Example.Cyclic

theorem aa_found {b A a : Nat} {t : PTree} (hf : (asked env cfg 5 wrap (parseSteps wrap.sof [2, 2])).Found b A a t) :
    ((A = 1 ∧ a = 0 ∧ b = 1) ∨ (A = 2 ∧ b = a + 1 ∧ 1 ≤ a)) ∧ ∃ x v, t = .leaf x v := by
  have hr : (asked env cfg 5 wrap (parseSteps wrap.sof [2, 2])).rules = rulesOf cfg := rfl
  have hbin : ∀ r ∈ rulesOf cfg, r.rhs1 ≠ none → (r.rhs0 = 1 ∧ r.rhs1 = some 4) ∨ r.rhs0 = 5 := by decide
  induction hf using Guided.Found.rec (motive_1 := fun a A _ => a ≤ 1) with
  | start => omega
  | corner _ _ ih => exact ih
  | next hR _ hf _ _ ih =>
    rcases hbin _ (List.mem_of_getElem? hR) (by simp) with h | h <;> simp only at h <;> omega
  | @token A v e hm =>
    refine ⟨?_, _, _, rfl⟩
    have hm' : (A, v) ∈ inputOf (parseSteps wrap.sof [2, 2]) e := hm
    match e, hm' with
    | 0, hm' => obtain ⟨rfl, rfl⟩ := Prod.mk.inj (List.mem_singleton.1 hm'); exact .inl ⟨rfl, rfl, rfl⟩
    | 1, hm' => obtain ⟨rfl, rfl⟩ := Prod.mk.inj (List.mem_singleton.1 hm'); exact .inr ⟨rfl, rfl, by decide⟩
    | 2, hm' => obtain ⟨rfl, rfl⟩ := Prod.mk.inj (List.mem_singleton.1 hm'); exact .inr ⟨rfl, rfl, by decide⟩
    | e + 3, hm' => exact absurd hm' List.not_mem_nil
  | @unary d A B a b t hR _ _ he ih1 ih2 =>
    exfalso
    obtain ⟨rfl, hB⟩ := hintedA_rules hR
    have hb : b = 2 := by omega
    subst hb
    rcases he with he | he | he
    · have : (5 : Nat) ≤ B := he
      omega
    · exact absurd he (by decide)
    · have : grammar.followHas 4 2 := he 2 rfl
      unfold DefaultGrammar.followHas at this
      revert this
      decide +kernel
  | binary hR _ _ _ _ _ _ ih2 ih3 =>
    exfalso
    rcases hbin _ (List.mem_of_getElem? hR) (by simp) with h | h
    · have := h.2
      simp only [Option.some.injEq] at this
      omega
    · simp only at h
      omega

/-- On `a a`, `parse` returns: after the first `a` it knows that `a` comes next, which cannot follow `S`. It reports the first
`a`. -/
example : ∃ s0 s, Rec.new env () = pure s0 ∧ Rec.parse env s0 [2, 2] = pure (s, .error (.parse [2] 0)) := by
  have hi : Internals env.g [2, 2] [2, 2] := cyclic_internals _
  obtain ⟨s0, h1, h2, -, -, h3⟩ := C66_parse (u := [2, 2]) prepared rfl safe hi (by unfold Terminals Terminal; decide) (by decide)
  have hnd : Rec.parse env s0 [2, 2] ≠ diverge := by
    intro hd
    obtain ⟨k, hk, a, A, t, hp, hf, hc⟩ := h2.1 hd
    obtain ⟨B, ⟨d, hR, he⟩, _⟩ := Relation.TransGen.head'_iff.1 hc
    obtain ⟨rfl, hB⟩ := hintedA_rules hR
    have := (aa_found hf).1
    omega
  have hr : (asked env cfg 5 wrap (parseSteps wrap.sof [2, 2])).rules = rulesOf cfg := rfl
  obtain ⟨s, t, ht, h4⟩ := h3 hnd 0 (by decide)
    (.inl ⟨3, 0, .leaf 1 0, 5, 1, 4, by rw [hr]; decide, .corner .start ⟨⟨3, 5, some 0⟩, by rw [hr]; decide, rfl, rfl⟩,
      .token (List.mem_singleton.2 rfl), .inr fun h hh => by cases hh⟩)
    (by
      rintro (⟨d, a, t, A, B, C, hR, _, hf, _⟩ | ⟨A, a, d, t, hf⟩)
      · have := (aa_found hf).1
        have hbin : ∀ r ∈ rulesOf cfg, r.rhs1 ≠ none → r.rhs0 = 1 ∨ r.rhs0 = 5 := by decide
        have := hbin _ (List.mem_of_getElem? hR) (by simp)
        simp only at this
        omega
      · obtain ⟨x, v, h⟩ := (aa_found hf).2
        cases h)
  cases ht
  exact ⟨s0, s, h1, h4⟩

end
end Gearley.Props
