import Verif.Proofs.Parse
import Verif.Proofs.ForestSafe
import Verif.Examples.Sums

/-!
# C01, C02, C04 – C07, C39: recognition

The hypotheses are `Built` (Spec/Setup.lean: the grammar tables come from a processed grammar), `SafeStart` (the forest
does not panic) and that tokens are ordinary terminal symbols. `E.leo = false` because the code panics with `todo!` when
Leo items are requested.
-/

namespace Gearley.Props
open Gearley.Spec
variable {σ ν : Type} {c : Cfg} {n : Nat} {w : WrappedRoot} {E : Env σ ν} {f : σ}

/-- Ordinary terminal symbols. -/
def Terminals (c : Cfg) (n : Nat) (u : List Nat) : Prop := ∀ t ∈ u, t < n ∧ Terminal (rulesOf c) t

theorem run_split {α : Type} {f : σ} {Q : Rec σ ν × Bool → Prop} {steps : List Step}
    (h : Returns (Rec.new E f >>= Rec.session E steps) Q) (k : Rec σ ν → M α) :
    ∃ s0 r, Rec.new E f = pure s0 ∧ Rec.session E steps s0 = pure r ∧ Q r ∧ (Rec.new E f >>= k) = k s0 := by
  obtain ⟨r, h1, h2⟩ := h
  obtain ⟨s0, h3, h4⟩ := bind_eq_pure h1
  exact ⟨s0, r, h3, h4, h2, by rw [h3, pure_bind]⟩

/-- How `parse` on a fresh recognizer ends: either all positions succeed and the answer is that of `is_finished`, or the
session of its steps fails at a definite position. -/
theorem parse_cases1 (hB : Built c n w E.g) (hleo : E.leo = false) (hF : SafeStart E.F f c.rules.length c.numSyms)
    {toks u : List Nat} (hi : Internals E.g toks u) (ht : Terminals c n u) (hlen : u.length + 1 < 2 ^ 64 - 1) :
    ∃ s0 s res, Rec.new E f = pure s0 ∧ Rec.parse E s0 toks = pure (s, res) ∧
      ((∃ b, res = .ok b ∧ (∃ s', Rec.session E (parseSteps w.sof u) s0 = pure (s', true)) ∧ (b = true ↔ Derives (rulesOf c) w.root (w.sof :: u ++ [w.eof]))) ∨
       (¬ Derives (rulesOf c) w.root (w.sof :: u ++ [w.eof]) ∧ ∃ m, m ≤ u.length ∧
        (∃ s', Rec.session E ((parseSteps w.sof u).take m) s0 = pure (s', true)) ∧
        Rec.session E ((parseSteps w.sof u).take (m + 1)) s0 = pure (s, false) ∧
        ((m = 0 ∧ res = .error (.parse [w.sof] 0)) ∨
         ∃ k t, m = k + 1 ∧ toks[k]? = some t ∧ res = .error (.parse [t] k)))) := by
  obtain ⟨root, rank, g0, hR⟩ := hB.ready
  obtain ⟨depth, hc⟩ := hB.processed
  have hs : w.sof < c.numSyms := Nat.lt_of_lt_of_le hB.sof_lt hc.syms_le
  have hlt : ∀ t ∈ u, t < c.numSyms := fun t h => Nat.lt_of_lt_of_le (ht t h).1 hc.syms_le
  have hacc := safe_accept hleo hR hF (steps := parseSteps w.sof u) (parseSteps_tokens hs hlt)
    (parseSteps_hints fun t h => (ht t h).1) (by simp [parseSteps]) (by rw [parseSteps_length]; exact hlen)
    (fun _ => parseSteps_honest ht)
  obtain ⟨s0, ⟨s, ok⟩, h1, h2, ⟨h3, h4⟩, _⟩ := run_split hacc (fun _ => (pure () : M Unit))
  obtain ⟨m, hm, hml, hmt, hmk, hmf⟩ := sessionCount_of_session _ _ h2
  rw [parseSteps_length] at hml hmt hmf
  rw [← hR.sof] at hm
  obtain ⟨p1, p2, p3⟩ := parse_spec hi hm
  rw [parseSteps_accepts hR.toReady0] at h3 h4
  by_cases hmm : m = u.length + 1
  · have hok : ok = true := hmt.2 hmm
    obtain ⟨b, hb, hb'⟩ := h3 hok
    have p1 := p1 hmm
    simp only at hb p1
    rw [hb, pure_bind] at p1
    exact ⟨s0, s, _, h1, p1, .inl ⟨b, rfl, ⟨s, hok ▸ h2⟩, hb'⟩⟩
  · have hok : ok = false := by
      have := mt hmt.1 hmm
      simpa using this
    have hml' : m ≤ u.length := by omega
    cases m with
    | zero =>
      exact ⟨s0, s, _, h1, p2 rfl, .inr ⟨h4 hok, 0, by omega, hmk 0 (by omega), hmf (by omega), .inl ⟨rfl, by rw [hR.sof]⟩⟩⟩
    | succ k =>
      obtain ⟨t, ht1, ht2⟩ := p3 k rfl (by omega)
      exact ⟨s0, s, _, h1, ht2, .inr ⟨h4 hok, k + 1, hml', hmk _ (Nat.le_refl _), hmf (by omega),
        .inr ⟨k, t, rfl, ht1, rfl⟩⟩⟩

theorem parse_cases (hB : Built c n w E.g) (hleo : E.leo = false) (hF : SafeStart E.F f c.rules.length c.numSyms)
    {toks u : List Nat} (hi : Internals E.g toks u) (ht : Terminals c n u) (hlen : u.length + 1 < 2 ^ 64 - 1) :
    ∃ s0 s res, Rec.new E f = pure s0 ∧ Rec.parse E s0 toks = pure (s, res) ∧
      ((∃ b, res = .ok b ∧ (b = true ↔ Derives (rulesOf c) w.root (w.sof :: u ++ [w.eof]))) ∨
       (¬ Derives (rulesOf c) w.root (w.sof :: u ++ [w.eof]) ∧ ∃ m, m ≤ u.length ∧
        (∃ s', Rec.session E ((parseSteps w.sof u).take m) s0 = pure (s', true)) ∧
        Rec.session E ((parseSteps w.sof u).take (m + 1)) s0 = pure (s, false) ∧
        ((m = 0 ∧ res = .error (.parse [w.sof] 0)) ∨
         ∃ k t, m = k + 1 ∧ toks[k]? = some t ∧ res = .error (.parse [t] k)))) := by
  obtain ⟨s0, s, res, h1, h2, h3⟩ := parse_cases1 hB hleo hF hi ht hlen
  exact ⟨s0, s, res, h1, h2, h3.imp (fun ⟨b, e, _, h⟩ => ⟨b, e, h⟩) id⟩

/-- C01 (and C02). `parse` on a fresh recognizer returns, and it returns `Ok(true)` exactly on the strings derived from
the root of the processed grammar. `u` are the internal symbols of the tokens. -/
theorem C01_parse_language (hB : Built c n w E.g) (hleo : E.leo = false)
    (hF : SafeStart E.F f c.rules.length c.numSyms) {toks u : List Nat} (hi : Internals E.g toks u)
    (ht : Terminals c n u) (hlen : u.length + 1 < 2 ^ 64 - 1) :
    ∃ s0 s res, Rec.new E f = pure s0 ∧ Rec.parse E s0 toks = pure (s, res) ∧
      (res = .ok true ↔ Derives (rulesOf c) w.root (w.sof :: u ++ [w.eof])) := by
  obtain ⟨s0, s, res, h1, h2, h3⟩ := parse_cases hB hleo hF hi ht hlen
  refine ⟨s0, s, res, h1, h2, ?_⟩
  rcases h3 with ⟨b, rfl, hb⟩ | ⟨h4, m, _, _, _, ⟨_, rfl⟩ | ⟨k, t, _, _, rfl⟩⟩
  · simpa using hb
  · simpa using h4
  · simpa using h4

/-- The wrapping rules added to the user's grammar: `root ::= g0 eof`, `g0 ::= sof inner` and, if the user's root is
nullable, `g0 ::= sof`. -/
structure Wrapping (R : Rules) (w : WrappedRoot) (nullable : Prop) : Prop where
  rules : ∃ g0, (⟨w.root, g0, some w.eof⟩ ∈ R ∧ ∀ r ∈ R, r.lhs = w.root → r = ⟨w.root, g0, some w.eof⟩) ∧
    (⟨g0, w.sof, some w.innerRoot⟩ ∈ R ∧ (⟨g0, w.sof, none⟩ ∈ R ↔ nullable) ∧
      ∀ r ∈ R, r.lhs = g0 → r = ⟨g0, w.sof, some w.innerRoot⟩ ∨ r = ⟨g0, w.sof, none⟩)
  ne : ∀ g0, ⟨w.root, g0, some w.eof⟩ ∈ R → g0 ≠ w.sof
  sof : Terminal R w.sof
  eof : Terminal R w.eof

theorem derives_terminal {R : Rules} {a : Nat} {u : List Nat} (h : Derives R a u) (ht : Terminal R a) : u = [a] := by
  cases h with
  | refl => rfl
  | unary hr _ _ => exact absurd rfl (ht _ hr)
  | binary hr _ _ _ => exact absurd rfl (ht _ hr)

/-- What the root of a wrapped grammar derives. -/
theorem wrapping_language {R : Rules} {nullable : Prop} (h : Wrapping R w nullable) (u : List Nat) :
    Derives R w.root (w.sof :: u ++ [w.eof]) ↔ (u = [] ∧ nullable) ∨ Derives R w.innerRoot u := by
  obtain ⟨g0, ⟨ha, hb⟩, hc, hd, he⟩ := h.rules
  constructor
  · intro h1
    generalize hx : w.sof :: u ++ [w.eof] = x at h1
    generalize hr : w.root = r at h1
    cases h1 with
    | refl => simp at hx
    | unary hm hn _ =>
      have := hb _ hm hr.symm
      rw [this] at hn; simp at hn
    | @binary r C u1 u2 hm hn h1 h2 =>
      have hr' := hb _ hm hr.symm
      rw [hr'] at hn h1
      simp only [Option.some.injEq] at hn h1
      subst hn
      have := derives_terminal h2 h.eof
      subst this
      have hu1 : u1 = w.sof :: u := (List.append_inj_left' hx rfl).symm
      subst hu1
      have hne := h.ne g0 ha
      generalize hy : w.sof :: u = y at h1
      cases h1 with
      | refl =>
        simp only [List.cons.injEq] at hy
        exact absurd hy.1.symm hne
      | @unary r u' hm' hn' hd' =>
        rcases he _ hm' rfl with hr2 | hr2
        · rw [hr2] at hn'; simp at hn'
        · have e2 : r.rhs0 = w.sof := by rw [hr2]
          rw [e2] at hd'
          have := derives_terminal hd' h.sof
          rw [this] at hy
          simp only [List.cons.injEq, true_and] at hy
          subst hy
          exact .inl ⟨rfl, hd.1 (by rw [← hr2]; exact hm')⟩
      | @binary r C v1 v2 hm' hn' hd1 hd2 =>
        rcases he _ hm' rfl with hr2 | hr2
        · have e2 : r.rhs0 = w.sof := by rw [hr2]
          have e3 : C = w.innerRoot := by rw [hr2] at hn'; exact (Option.some.inj hn').symm
          rw [e2] at hd1
          have := derives_terminal hd1 h.sof
          rw [this] at hy
          simp only [List.cons_append, List.nil_append, List.cons.injEq, true_and] at hy
          subst hy
          rw [e3] at hd2
          exact .inr hd2
        · rw [hr2] at hn'; simp at hn'
  · rintro (⟨rfl, hn⟩ | h1)
    · exact .binary (r := ⟨w.root, g0, some w.eof⟩) (u := [w.sof]) ha rfl
        (.unary (r := ⟨g0, w.sof, none⟩) (hd.2 hn) rfl (.refl _)) (.refl _)
    · exact .binary (r := ⟨w.root, g0, some w.eof⟩) (u := w.sof :: u) ha rfl
        (.binary (r := ⟨g0, w.sof, some w.innerRoot⟩) (u := [w.sof]) hc rfl (.refl _) h1) (.refl _)

/-- C01 in terms of the user's root symbol: `parse` returns `Ok(true)` exactly when the user's root derives the tokens
(or there are no tokens and the root was nullable). -/
theorem C01_parse_user_language {nullable : Prop} (hB : Built c n w E.g) (hleo : E.leo = false)
    (hF : SafeStart E.F f c.rules.length c.numSyms) (hw : Wrapping (rulesOf c) w nullable) {toks u : List Nat}
    (hi : Internals E.g toks u) (ht : Terminals c n u) (hlen : u.length + 1 < 2 ^ 64 - 1) :
    ∃ s0 s res, Rec.new E f = pure s0 ∧ Rec.parse E s0 toks = pure (s, res) ∧
      (res = .ok true ↔ (u = [] ∧ nullable) ∨ Derives (rulesOf c) w.innerRoot u) := by
  obtain ⟨s0, s, res, h1, h2, h3⟩ := C01_parse_language hB hleo hF hi ht hlen
  exact ⟨s0, s, res, h1, h2, h3.trans (wrapping_language hw u)⟩

/-- C02. `parse` on a fresh recognizer returns: no panic, no endless loop. -/
theorem C02_parse_returns (hB : Built c n w E.g) (hleo : E.leo = false)
    (hF : SafeStart E.F f c.rules.length c.numSyms) {toks u : List Nat} (hi : Internals E.g toks u)
    (ht : Terminals c n u) (hlen : u.length + 1 < 2 ^ 64 - 1) :
    ∃ s res, (do let s0 ← Rec.new E f; Rec.parse E s0 toks) = pure (s, res) := by
  obtain ⟨s0, s, res, h1, h2, _⟩ := parse_cases hB hleo hF hi ht hlen
  exact ⟨s, res, by rw [h1, pure_bind, h2]⟩

/-- C02 for arbitrary sessions: any hints, any token sets (of known symbols), any forest that does not panic. -/
theorem C02_session_returns (hB : Built c n w E.g) (hleo : E.leo = false)
    (hF : SafeStart E.F f c.rules.length c.numSyms) {steps : List Step} (htok : TokensOK c.numSyms steps)
    (hin : HintsIn n steps) (hlen : steps.length < 2 ^ 64) :
    ∃ r, (Rec.new E f >>= Rec.session E steps) = pure r := by
  obtain ⟨root, rank, g0, hR⟩ := hB.ready
  obtain ⟨r, h, _⟩ := safe_run hleo hR hF htok fun f0 => session_sound (la := E.lookahead) (so := E.sorter) hR.ok hR.ranked
    hlen (stepsOK_of hR htok hin) f0
  exact ⟨r, h⟩

/-- C02, the forests of the repository: none of the three panics when driven by the recognizer. -/
theorem C02_forests (dots syms : Nat) : SafeStart nullForest () dots syms ∧
    (∀ info b, Simple.Bocage.new info = pure b → SafeStart Simple.forest b dots syms) ∧
    ∀ b, SafeStart Compact.forest b dots syms :=
  ⟨nullForest_safeStart _ _, fun _ _ h => simple_safeStart (Simple.new_summandCount h) _ _, fun b => compact_safeStart b _ _⟩

theorem tokensOK_take {m k : Nat} {steps : List Step} (h : TokensOK m steps) : TokensOK m (steps.take k) :=
  fun st hst => h st (List.mem_of_mem_take hst)

theorem hintsIn_take {m k : Nat} {steps : List Step} (h : HintsIn m steps) : HintsIn m (steps.take k) :=
  fun st hst => h st (List.mem_of_mem_take hst)

/-- How a `parse` that returns fails, whatever cycles the grammar has. -/
theorem parse_fails0 (hB : Prepared c n w E.g) (hleo : E.leo = false)
    (hF : SafeStart E.F f c.rules.length c.numSyms) {toks u : List Nat} (hi : Internals E.g toks u)
    (ht : Terminals c n u) (hlen : u.length + 1 < 2 ^ 64 - 1) {s0 s : Rec σ ν} {res : Except ParseError Bool}
    (h1 : Rec.new E f = pure s0) (h2 : Rec.parse E s0 toks = pure (s, res)) :
    (∃ b, res = .ok b ∧ ViablePrefix (rulesOf c) w.root (w.sof :: u)) ∨
       ∃ m, m ≤ u.length ∧ ViablePrefix (rulesOf c) w.root ((w.sof :: u).take m) ∧
        (∀ v, (E.lookahead = true → 1 < m + 1 → m + 1 < u.length + 1 → v.head? = (w.sof :: u)[m + 1]?) →
          ¬ Derives (rulesOf c) w.root ((w.sof :: u).take (m + 1) ++ v)) ∧
        ((m = 0 ∧ res = .error (.parse [w.sof] 0)) ∨
         ∃ k t, m = k + 1 ∧ toks[k]? = some t ∧ res = .error (.parse [t] k)) := by
  obtain ⟨root, g0, hR⟩ := hB.ready0
  obtain ⟨depth, hc⟩ := hB.processed
  have hs : w.sof < c.numSyms := Nat.lt_of_lt_of_le hB.sof_lt hc.syms_le
  have hlt : ∀ t ∈ u, t < c.numSyms := fun t h => Nat.lt_of_lt_of_le (ht t h).1 hc.syms_le
  have htok : TokensOK c.numSyms (parseSteps w.sof u) := parseSteps_tokens hs hlt
  have hin : HintsIn n (parseSteps w.sof u) := parseSteps_hints fun t h => (ht t h).1
  have hpl : (parseSteps w.sof u).length = u.length + 1 := parseSteps_length
  have hacc := safe_accept' (lax := True) hleo hR hF (steps := parseSteps w.sof u) htok hin (by simp [parseSteps])
    (by rw [hpl]; exact hlen) (fun _ => parseSteps_honest ht) (.inl trivial)
  rw [h1, pure_bind] at hacc
  rcases hacc with ⟨⟨s1, ok⟩, h5, h6, _⟩ | ⟨_, h5⟩
  swap
  · rw [parse_diverges hi (by rw [hR.sof]; exact h5)] at h2
    exact absurd h2 diverge_ne_pure
  obtain ⟨m, hm, hml, hmt, hmk, hmf⟩ := sessionCount_of_session _ _ h5
  rw [hpl] at hml hmt hmf
  rw [← hR.sof] at hm
  obtain ⟨p1, p2, p3⟩ := parse_spec hi hm
  rw [hR.sof] at p2
  have hread : ∀ m s', m ≤ u.length + 1 → Rec.session E ((parseSteps w.sof u).take m) s0 = pure (s', true) →
      ViablePrefix (rulesOf c) w.root ((w.sof :: u).take m) := by
    intro m s' hm hs'
    have hrun := safe_run' (lax := True) hleo hR hF (tokensOK_take (k := m) htok) fun f0 =>
      session_sound' (la := E.lookahead) (so := E.sorter) hR.ok (.inl trivial) (steps := (parseSteps w.sof u).take m)
        (by rw [List.length_take]; omega) (stepsOK_of0 hR (tokensOK_take htok) (hintsIn_take hin)) f0
    rw [h1, pure_bind] at hrun
    obtain ⟨r0, hq, hr0, _⟩ := hrun.of_eq hs'
    rw [← hR.start, ← parseSteps_viable]
    exact hq hr0.symm
  have hres : m = u.length + 1 ∧ (∃ b, res = .ok b) ∨ m ≤ u.length ∧ s1 = s ∧ ((m = 0 ∧ res = .error (.parse [w.sof] 0)) ∨
      ∃ k t, m = k + 1 ∧ toks[k]? = some t ∧ res = .error (.parse [t] k)) := by
    by_cases hmm : m = u.length + 1
    · obtain ⟨b, hb, _⟩ := h6 (hmt.2 hmm)
      have p1 := p1 hmm
      simp only at hb p1
      rw [hb, pure_bind, h2] at p1
      exact .inl ⟨hmm, b, (Prod.mk.inj (pure_inj_M p1)).2⟩
    · refine .inr ⟨by omega, ?_⟩
      cases m with
      | zero =>
        have p2 := p2 rfl
        rw [h2] at p2
        obtain ⟨e1, e2⟩ := Prod.mk.inj (pure_inj_M p2)
        exact ⟨e1.symm, .inl ⟨rfl, e2⟩⟩
      | succ k =>
        obtain ⟨t, ht1, ht2⟩ := p3 k rfl (by omega)
        rw [h2] at ht2
        obtain ⟨e1, e2⟩ := Prod.mk.inj (pure_inj_M ht2)
        exact ⟨e1.symm, .inr ⟨k, t, rfl, ht1, e2⟩⟩
  rcases hres with ⟨hmm, b, rfl⟩ | ⟨hm, rfl, hres⟩
  · refine .inl ⟨b, rfl, ?_⟩
    obtain ⟨s', hs'⟩ := hmk (u.length + 1) (by omega)
    have := hread (u.length + 1) s' (Nat.le_refl _) hs'
    rwa [List.take_of_length_le (by simp)] at this
  obtain ⟨s', hs'⟩ := hmk m (Nat.le_refl _)
  have hf := hmf (by omega)
  refine .inr ⟨m, hm, hread m s' (by omega) hs', ?_, hres⟩
  intro v hv hd
  have hlm : ((parseSteps w.sof u).take (m + 1)).length = m + 1 := by rw [List.length_take]; omega
  have hrun := safe_run' (lax := True) hleo hR hF (tokensOK_take (k := m + 1) htok) fun f0 =>
    session_through' (la := E.lookahead) (so := E.sorter) hR.ok hR.look (.inl trivial)
      (steps := (parseSteps w.sof u).take (m + 1)) (u := (w.sof :: u).take (m + 1)) (v := v)
      (by intro hnil; rw [hnil] at hlm; simp at hlm) (by rw [hlm]; omega)
      (stepsOK_of0 hR (tokensOK_take htok) (hintsIn_take hin))
      (by
        intro st hst t ht' heq
        obtain ⟨k, hk⟩ := List.getElem?_of_mem (List.mem_of_mem_take hst)
        obtain ⟨⟨a, ha, x, _, hx⟩, _⟩ := parseSteps_get hk
        rw [hx] at ht'
        simp only [List.mem_singleton] at ht'
        subst ht'
        simp only at heq
        have hat : Terminal (rulesOf c) a := by
          have := List.mem_of_getElem? ha
          simp only [List.mem_cons] at this
          rcases this with rfl | hmem
          · exact hB.sofTerm
          · exact (ht a hmem).2
        exact hat _ (List.mem_of_getElem? hR.rule) heq.symm)
      (by rw [hlm, List.length_take]; simp; omega)
      ((parseSteps_input _ (by rw [hlm, List.length_take]; simp; omega)).2 rfl)
      (by rw [hR.start]; exact hd)
      (fun hla => parseSteps_hintsOK ht (hv hla)) f0
  rw [h1, pure_bind] at hrun
  obtain ⟨r0, hq, hr0, _⟩ := hrun.of_eq hf
  rw [← hr0] at hq
  simp at hq

/-- Where `parse` fails: what was read before, with the start marker, can be continued; with the next token it cannot, if look-ahead is on
by nothing that begins with the token after it. -/
theorem parse_fails (hB : Built c n w E.g) (hleo : E.leo = false)
    (hF : SafeStart E.F f c.rules.length c.numSyms) {toks u : List Nat} (hi : Internals E.g toks u)
    (ht : Terminals c n u) (hlen : u.length + 1 < 2 ^ 64 - 1) :
    ∃ s0 s res, Rec.new E f = pure s0 ∧ Rec.parse E s0 toks = pure (s, res) ∧
      ((∃ b, res = .ok b ∧ ViablePrefix (rulesOf c) w.root (w.sof :: u)) ∨
       ∃ m, m ≤ u.length ∧ ViablePrefix (rulesOf c) w.root ((w.sof :: u).take m) ∧
        (∀ v, (E.lookahead = true → 1 < m + 1 → m + 1 < u.length + 1 → v.head? = (w.sof :: u)[m + 1]?) →
          ¬ Derives (rulesOf c) w.root ((w.sof :: u).take (m + 1) ++ v)) ∧
        ((m = 0 ∧ res = .error (.parse [w.sof] 0)) ∨
         ∃ k t, m = k + 1 ∧ toks[k]? = some t ∧ res = .error (.parse [t] k))) := by
  obtain ⟨s0, s, res, h1, h2, _⟩ := parse_cases1 hB hleo hF hi ht hlen
  exact ⟨s0, s, res, h1, h2, parse_fails0 hB.toPrepared hleo hF hi ht hlen h1 h2⟩

/-- C04. When `parse` fails at position `i`, the tokens before `i` can be continued, while the tokens up to and including
`i + 1` cannot (if `i` is the last token: up to and including `i`). Hence the first offending token is `i` or `i + 1`.
The tokens are preceded by the start marker; if that cannot be read, the reported position is 0. -/
theorem C04_error_position (hB : Built c n w E.g) (hleo : E.leo = false)
    (hF : SafeStart E.F f c.rules.length c.numSyms) {toks u : List Nat} (hi : Internals E.g toks u)
    (ht : Terminals c n u) (hlen : u.length + 1 < 2 ^ 64 - 1) :
    ∃ s0 s res, Rec.new E f = pure s0 ∧ Rec.parse E s0 toks = pure (s, res) ∧
      ∀ e, res = .error e →
        (¬ ViablePrefix (rulesOf c) w.root [w.sof] ∧ e = .parse [w.sof] 0) ∨
        (∃ i t, toks[i]? = some t ∧ e = .parse [t] i ∧
          ViablePrefix (rulesOf c) w.root (w.sof :: u.take i) ∧
          ¬ ViablePrefix (rulesOf c) w.root (w.sof :: u.take (i + 2))) := by
  obtain ⟨s0, s, res, h1, h2, h3⟩ := parse_fails hB hleo hF hi ht hlen
  refine ⟨s0, s, res, h1, h2, ?_⟩
  intro e he
  rcases h3 with ⟨b, rfl, hb⟩ | ⟨m, hm, hbefore, hafter, hres⟩
  · simp at he
  rcases hres with ⟨rfl, rfl⟩ | ⟨k, t, rfl, hk, rfl⟩
  · left
    simp only [Except.error.injEq] at he
    refine ⟨?_, he.symm⟩
    rintro ⟨v, hv⟩
    exact hafter v (by omega) (by simpa using hv)
  · right
    simp only [Except.error.injEq] at he
    have hkl : k < u.length := by omega
    refine ⟨k, t, hk, he.symm, by simpa using hbefore, ?_⟩
    rintro ⟨v, hv⟩
    have hsplit : w.sof :: u.take (k + 2) ++ v = (w.sof :: u).take (k + 1 + 1) ++ ((u.drop (k + 1)).take 1 ++ v) := by
      simp only [List.take_succ_cons, List.cons_append, List.cons.injEq, true_and]
      rw [← List.append_assoc, ← List.take_add]
    rw [hsplit] at hv
    refine hafter _ ?_ hv
    intro _ _ hlt
    have hk1 : k + 1 < u.length := by omega
    rw [List.drop_eq_getElem_cons hk1, List.getElem?_cons_succ, List.getElem?_eq_getElem hk1]
    rfl

/-- C04 with look-ahead turned off: the reported position is exact. The tokens before it can be continued, together with the token at
this position they cannot. -/
theorem C04_exact (hB : Built c n w E.g) (hleo : E.leo = false) (hla : E.lookahead = false)
    (hF : SafeStart E.F f c.rules.length c.numSyms) {toks u : List Nat} (hi : Internals E.g toks u)
    (ht : Terminals c n u) (hlen : u.length + 1 < 2 ^ 64 - 1) :
    ∃ s0 s res, Rec.new E f = pure s0 ∧ Rec.parse E s0 toks = pure (s, res) ∧
      ∀ e, res = .error e →
        (¬ ViablePrefix (rulesOf c) w.root [w.sof] ∧ e = .parse [w.sof] 0) ∨
        (∃ i t, toks[i]? = some t ∧ e = .parse [t] i ∧
          ViablePrefix (rulesOf c) w.root (w.sof :: u.take i) ∧
          ¬ ViablePrefix (rulesOf c) w.root (w.sof :: u.take (i + 1))) := by
  obtain ⟨s0, s, res, h1, h2, h3⟩ := parse_fails hB hleo hF hi ht hlen
  refine ⟨s0, s, res, h1, h2, ?_⟩
  intro e he
  rcases h3 with ⟨b, rfl, hb⟩ | ⟨m, hm, hbefore, hafter, ⟨rfl, rfl⟩ | ⟨k, t, rfl, hk, rfl⟩⟩
  · simp at he
  · left
    simp only [Except.error.injEq] at he
    refine ⟨?_, he.symm⟩
    rintro ⟨v, hv⟩
    exact hafter v (by omega) (by simpa using hv)
  · right
    simp only [Except.error.injEq] at he
    refine ⟨k, t, hk, he.symm, by simpa using hbefore, ?_⟩
    rintro ⟨v, hv⟩
    exact hafter v (fun h => by rw [hla] at h; cases h) (by simpa using hv)

/-- C04: there is no error only if the tokens can be continued. -/
theorem C04_ok (hB : Built c n w E.g) (hleo : E.leo = false)
    (hF : SafeStart E.F f c.rules.length c.numSyms) {toks u : List Nat} (hi : Internals E.g toks u)
    (ht : Terminals c n u) (hlen : u.length + 1 < 2 ^ 64 - 1) :
    ∃ s0 s res, Rec.new E f = pure s0 ∧ Rec.parse E s0 toks = pure (s, res) ∧
      ∀ b, res = .ok b → ViablePrefix (rulesOf c) w.root (w.sof :: u) := by
  obtain ⟨s0, s, res, h1, h2, h3⟩ := parse_fails hB hleo hF hi ht hlen
  refine ⟨s0, s, res, h1, h2, ?_⟩
  rintro b rfl
  rcases h3 with ⟨b, _, hb⟩ | ⟨m, hm, hbefore, hafter, ⟨_, e⟩ | ⟨_, _, _, _, e⟩⟩
  · exact hb
  · cases e
  · cases e

/-- C04, conversely. If the tokens can be continued, `parse` reports no error. -/
theorem C04_no_error (hB : Built c n w E.g) (hleo : E.leo = false)
    (hF : SafeStart E.F f c.rules.length c.numSyms) {toks u : List Nat} (hi : Internals E.g toks u)
    (ht : Terminals c n u) (hlen : u.length + 1 < 2 ^ 64 - 1) (hv : ViablePrefix (rulesOf c) w.root (w.sof :: u)) :
    ∃ s0 s b, Rec.new E f = pure s0 ∧ Rec.parse E s0 toks = pure (s, .ok b) := by
  have hpre : ∀ k, ViablePrefix (rulesOf c) w.root (w.sof :: u.take k) := by
    intro k
    obtain ⟨v, hv⟩ := hv
    refine ⟨u.drop k ++ v, ?_⟩
    rw [List.cons_append, ← List.append_assoc, List.take_append_drop]
    exact hv
  obtain ⟨s0, s, res, h1, h2, h3⟩ := C04_error_position hB hleo hF hi ht hlen
  cases res with
  | ok b => exact ⟨s0, s, b, h1, h2⟩
  | error e =>
    rcases h3 e rfl with ⟨h, _⟩ | ⟨i, t, _, _, _, h⟩
    · exact absurd (by simpa using hpre 0) h
    · exact absurd (hpre _) h

/-! ### Sessions -/

/-- The tokens scanned so far can be continued: one token per position can be chosen such that the chosen string begins a
sentential form of the root. -/
def CanContinue (c : Cfg) (w : WrappedRoot) (steps : List Step) : Prop :=
  ∃ u, u.length = steps.length ∧ Picks (inputOf steps) 0 u ∧ ViablePrefix (rulesOf c) w.root u

/-- One token per position can be chosen such that the chosen string, followed by the end marker, is a sentence. -/
def Sentence (c : Cfg) (w : WrappedRoot) (steps : List Step) : Prop :=
  ∃ u, u.length = steps.length ∧ Picks (inputOf steps) 0 u ∧ Derives (rulesOf c) w.root (u ++ [w.eof])

theorem canContinue_iff {steps : List Step} : CanContinue c w steps ↔ Viable (rulesOf c) w.root steps := by
  constructor
  · rintro ⟨u, h1, h2, v, h3⟩; exact ⟨u, v, h1, h2, h3⟩
  · rintro ⟨u, v, h1, h2, h3⟩; exact ⟨u, h1, h2, v, h3⟩

/-- C05. Without hints, a session gets through all its positions (every `end_earleme` returns true) if and only if what
was scanned is the beginning of a sentential form. -/
theorem C05_viable_prefix (hB : Built c n w E.g) (hleo : E.leo = false)
    (hF : SafeStart E.F f c.rules.length c.numSyms) {steps : List Step} (htok : TokensOK c.numSyms steps)
    (hstart : ∀ st ∈ steps, ∀ t ∈ st.2, t.1 ≠ w.root) (hno : NoHints steps) (hlen : steps.length < 2 ^ 64) :
    ∃ r, (Rec.new E f >>= Rec.session E steps) = pure r ∧ (r.2 = true ↔ CanContinue c w steps) := by
  obtain ⟨root, rank, g0, hR⟩ := hB.ready
  obtain ⟨r, h, r0, ⟨hq, _⟩, hr0, _⟩ := safe_run hleo hR hF htok fun f0 =>
    new_viable (la := E.lookahead) (sorter := E.sorter) hR.ok hR.ranked hlen
      (stepsOK_of hR htok fun st hst x hx => absurd hx (hno st hst x)) (fun _ => hno) (by rw [hR.start]; exact hstart) f0
  refine ⟨r, h, ?_⟩
  rw [hr0, hq, hR.start, canContinue_iff]

/-- C39. Without hints, once a position has failed, no sequence of further token sets leads to a sentence. -/
theorem C39_exhaustion_final (hB : Built c n w E.g) (hleo : E.leo = false)
    (hF : SafeStart E.F f c.rules.length c.numSyms) {steps : List Step} (htok : TokensOK c.numSyms steps)
    (hstart : ∀ st ∈ steps, ∀ t ∈ st.2, t.1 ≠ w.root) (hno : NoHints steps) (hlen : steps.length < 2 ^ 64) :
    ∃ r, (Rec.new E f >>= Rec.session E steps) = pure r ∧
      (r.2 = false → ∀ more : List Step, ¬ Sentence c w (steps ++ more)) := by
  obtain ⟨r, h1, h2⟩ := C05_viable_prefix hB hleo hF htok hstart hno hlen
  refine ⟨r, h1, fun hf more => ?_⟩
  rintro ⟨u, hl, hp, hd⟩
  rw [List.length_append] at hl
  have : CanContinue c w steps := by
    refine ⟨u.take steps.length, by rw [List.length_take]; omega, ?_, u.drop steps.length ++ [w.eof], ?_⟩
    · rw [← List.take_append_drop steps.length u] at hp
      refine (picks_append.1 hp).1.congr ?_
      intro p _ hpl
      rw [List.length_take] at hpl
      have : p < steps.length := by omega
      simp only [inputOf, List.getElem?_append_left this]
    · rw [← List.append_assoc, List.take_append_drop]; exact hd
  rw [← h2, hf] at this
  simp at this

/-- C06. After any session (several tokens per position, any honest hints): `is_finished` says whether one token can be
chosen per position such that the result is a sentence; and if a position failed there is no such choice. -/
theorem C06_alternative_tokens (hB : Built c n w E.g) (hleo : E.leo = false)
    (hF : SafeStart E.F f c.rules.length c.numSyms) {steps : List Step} (htok : TokensOK c.numSyms steps)
    (hin : HintsIn n steps) (hh : Honest (fun t => t < n ∧ Terminal (rulesOf c) t) w.eof steps)
    (hne : steps ≠ []) (hlen : steps.length < 2 ^ 64 - 1) :
    ∃ r, (Rec.new E f >>= Rec.session E steps) = pure r ∧
      (r.2 = true → ∃ b, Rec.isFinished E r.1 = pure b ∧ (b = true ↔ Sentence c w steps)) ∧
      (r.2 = false → ¬ Sentence c w steps) := by
  obtain ⟨root, rank, g0, hR⟩ := hB.ready
  obtain ⟨r, h, h1, h2⟩ := safe_accept hleo hR hF htok hin hne hlen (fun _ => hh)
  rw [hR.accepts] at h1 h2
  exact ⟨r, h, h1, h2⟩

/-- What a client learns from a session: did all positions succeed, and is the recognizer finished then? -/
def accepted (E : Env σ ν) (f : σ) (steps : List Step) : M Bool := do
  let s ← Rec.new E f
  let (s, ok) ← Rec.session E steps s
  if ok then Rec.isFinished E s else pure false

/-- The same session without hints. -/
def dropHints (steps : List Step) : List Step := steps.map fun st => (.clear, st.2)

theorem inputOf_dropHints (steps : List Step) : inputOf (dropHints steps) = inputOf steps := by
  funext i
  simp only [inputOf, dropHints, List.getElem?_map]
  cases steps[i]? <;> rfl

theorem accepted_spec (hB : Built c n w E.g) (hleo : E.leo = false)
    (hF : SafeStart E.F f c.rules.length c.numSyms) {steps : List Step} (htok : TokensOK c.numSyms steps)
    (hin : HintsIn n steps) (hh : Honest (fun t => t < n ∧ Terminal (rulesOf c) t) w.eof steps)
    (hne : steps ≠ []) (hlen : steps.length < 2 ^ 64 - 1) :
    ∃ b, accepted E f steps = pure b ∧ (b = true ↔ Sentence c w steps) := by
  obtain ⟨⟨s, ok⟩, h1, h2, h3⟩ := C06_alternative_tokens hB hleo hF htok hin hh hne hlen
  obtain ⟨s0, h4, h5⟩ := bind_eq_pure h1
  simp only at h2 h3
  unfold accepted
  rw [h4, pure_bind, h5, pure_bind]
  cases ok with
  | true => obtain ⟨b, hb, hb'⟩ := h2 rfl; exact ⟨b, hb, hb'⟩
  | false => exact ⟨false, rfl, by simpa using h3 rfl⟩

/-- C07. Honest hints do not change acceptance. -/
theorem C07_hints_harmless (hB : Built c n w E.g) (hleo : E.leo = false)
    (hF : SafeStart E.F f c.rules.length c.numSyms) {steps : List Step} (htok : TokensOK c.numSyms steps)
    (hin : HintsIn n steps) (hh : Honest (fun t => t < n ∧ Terminal (rulesOf c) t) w.eof steps)
    (hne : steps ≠ []) (hlen : steps.length < 2 ^ 64 - 1) :
    accepted E f steps = accepted E f (dropHints steps) := by
  obtain ⟨b, h1, h2⟩ := accepted_spec hB hleo hF htok hin hh hne hlen
  obtain ⟨b', h1', h2'⟩ := accepted_spec hB hleo hF (steps := dropHints steps)
    (by
      intro st hst
      obtain ⟨st', hst', rfl⟩ := List.mem_map.1 hst
      exact htok st' hst')
    (by
      intro st hst x hx
      obtain ⟨st', hst', rfl⟩ := List.mem_map.1 hst
      simp at hx)
    (by
      intro i st x hst hx
      obtain ⟨st', hst', rfl⟩ := List.mem_map.1 (List.mem_of_getElem? hst)
      simp at hx)
    (by simpa [dropHints] using hne) (by simpa [dropHints] using hlen)
  have : Sentence c w (dropHints steps) ↔ Sentence c w steps := by
    unfold Sentence
    rw [inputOf_dropHints]
    simp [dropHints]
  rw [h1, h1']
  congr 1
  rw [this, ← h2] at h2'
  cases b <;> cases b' <;> simp_all

/-! ### The hypotheses can be met -/

section
open Gearley.Example

theorem example_terminals : Terminals cfg 6 [5, 2, 5] := by
  intro t ht
  have : ∀ t ∈ [5, 2, 5], t < 6 ∧ ∀ r ∈ rulesOf cfg, r.lhs ≠ t := by decide
  exact this t ht

/-- `a plus a` is derived from the root of the example grammar. -/
theorem example_derives : Derives (rulesOf cfg) wrap.root (wrap.sof :: [5, 2, 5] ++ [wrap.eof]) := by
  refine .binary (r := ⟨3, 6, some 0⟩) (u := [1, 5, 2, 5]) (v := [0]) (by decide) rfl ?_ (.refl _)
  refine .binary (r := ⟨6, 1, some 4⟩) (u := [1]) (v := [5, 2, 5]) (by decide) rfl (.refl _) ?_
  refine .binary (r := ⟨4, 7, some 4⟩) (u := [5, 2]) (v := [5]) (by decide) rfl ?_ ?_
  · refine .binary (r := ⟨7, 4, some 2⟩) (u := [5]) (v := [2]) (by decide) rfl ?_ (.refl _)
    exact .unary (r := ⟨4, 5, none⟩) (by decide) rfl (.refl _)
  · exact .unary (r := ⟨4, 5, none⟩) (by decide) rfl (.refl _)

-- C01 on the example: the string is accepted.
example : ∃ s0 s, Rec.new env () = pure s0 ∧ Rec.parse env s0 [5, 2, 5] = pure (s, .ok true) := by
  obtain ⟨s0, s, res, h1, h2, h3⟩ := C01_parse_language built rfl safe (internals _) example_terminals (by decide)
  exact ⟨s0, s, h1, by rw [h2, h3.2 example_derives]⟩

-- C01 and C04 on the example, the other way round: a computed rejection tells something about the grammar.
example : ¬ Derives (rulesOf cfg) wrap.root [1, 5, 2, 0] := by
  intro h
  obtain ⟨s0, s, res, h1, h2, h3⟩ := C01_parse_language (u := [5, 2]) built rfl safe (internals _)
    (fun t ht => example_terminals t (by simp at ht ⊢; omega)) (by decide)
  have hrun : (do
    let s ← Rec.new env ()
    let (_, r) ← Rec.parseWith env (Rec.completeAllFuel env 50) s [5, 2]
    pure r : M (Except ParseError Bool)) = pure (.ok false) := by decide +kernel
  rw [h1, pure_bind] at hrun
  obtain ⟨⟨s', r'⟩, h4, h5⟩ := bind_eq_pure hrun
  have h6 := Rec.parse_below 50 s0 [5, 2] _ h4
  have h5 := pure_inj_M h5
  rw [h2] at h6
  have h6 := pure_inj_M h6
  simp only [Prod.mk.injEq] at h6
  rw [h6.2, h5] at h3
  exact absurd (h3.2 h) (by decide)

/-- Two tokens at the first position, a hint at the second. -/
def example_steps : List Step := [(.keep, [(1, 0)]), (.keep, [(5, 0), (2, 7)]), (.set 5, [(2, 1)]), (.clear, [(5, 2)])]

example : TokensOK cfg.numSyms example_steps ∧ HintsIn 6 example_steps ∧
    Honest (fun t => t < 6 ∧ Terminal (rulesOf cfg) t) wrap.eof example_steps := by
  refine ⟨by unfold TokensOK; decide, ?_, ?_⟩
  · intro st hst x hx
    simp only [example_steps, List.mem_cons, List.not_mem_nil, or_false] at hst
    rcases hst with rfl | rfl | rfl | rfl <;> simp_all
    omega
  · intro i st x hst hx
    match i with
    | 0 => simp [example_steps] at hst; subst hst; simp at hx
    | 1 => simp [example_steps] at hst; subst hst; simp at hx
    | 2 =>
      simp [example_steps] at hst; subst hst; simp at hx; subst hx
      refine ⟨⟨by decide, by unfold Terminal; decide⟩, ?_, by decide⟩
      intro st' hst'
      simp [example_steps] at hst'; subst hst'; simp
    | 3 => simp [example_steps] at hst; subst hst; simp at hx
    | i + 4 => simp [example_steps] at hst

example : Wrapping (rulesOf cfg) wrap False := by
  refine ⟨⟨6, ⟨by decide, by decide⟩, by decide, by simp; decide, by decide⟩, ?_, ?_, ?_⟩
  · intro g0 h; have : ∀ r ∈ rulesOf cfg, r.rhs0 ≠ 1 ∨ r.lhs ≠ 3 := by decide
    rcases this _ h with h | h
    · exact h
    · exact absurd rfl h
  · unfold Terminal; decide
  · unfold Terminal; decide

end

end Gearley.Props
