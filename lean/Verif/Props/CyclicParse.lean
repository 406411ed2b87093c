import Verif.Props.Cycles

/-!
# C63: `parse` with cyclic grammars

C03 tells when the recognizer stops, for grammars with cycles of one-symbol rules. Here the verdict of `parse` is considered
for such grammars: it never panics, its verdict is right whenever it returns, it returns if no symbol on a cycle is completed,
and it does not return on a string with infinitely many derivation trees.
-/

namespace Gearley.Props
open Gearley Gearley.Spec

variable {σ ν : Type} {E : Env σ ν} {c : Cfg} {n : Nat} {w : WrappedRoot} {f : σ}

theorem new_returns0 (hB : Prepared c n w E.g) (hleo : E.leo = false) (hF : SafeStart E.F f c.rules.length c.numSyms) :
    ∃ s0, Rec.new E f = pure s0 := by
  obtain ⟨r, hr⟩ := C03_returns_without_cycle hB hleo hF (steps := []) (fun st h => by cases h) (fun st h => by cases h) (by decide)
    (by
      rintro ⟨k, A, hk, ⟨a, t, _, h2⟩, _⟩
      have := h2.lt
      simp at hk
      omega)
  obtain ⟨s0, h, _⟩ := bind_eq_pure hr
  exact ⟨s0, h⟩

theorem settles_without_cycle {steps : List Step} {tail : List Nat} (hno : ¬ CycleCompletes c w steps) {k : Nat} (hk : k < steps.length) :
    SettlesAt (rulesOf c) (extendBy steps tail) (Pred (rulesOf c) w.root (extendBy steps tail)) k := by
  obtain ⟨rank, hr⟩ := rank_off_cycles (rulesOf c)
  refine ⟨rank, fun r hr1 h1 ⟨a, t, h2, h3⟩ => hr r hr1 h1 fun hc => hno ⟨k + 1, r.lhs, by omega, ?_, hc⟩⟩
  exact Completes.congr ⟨a, t, h2, h3⟩ fun q hq => extendBy_lt (by omega)

/-- How `parse` ends, whatever cycles the grammar has. With `lax` it may diverge. -/
theorem parse_ends {lax : Prop} (hB : Prepared c n w E.g) (hleo : E.leo = false) (hF : SafeStart E.F f c.rules.length c.numSyms)
    {toks u : List Nat} (hi : Internals E.g toks u) (ht : Terminals c n u) (hlen : u.length + 1 < 2 ^ 64 - 1)
    (hterm : lax ∨ ¬ CycleCompletes c w (parseSteps w.sof u)) :
    ∃ s0, Rec.new E f = pure s0 ∧ Ends lax (Rec.parse E s0 toks) fun r =>
      (r.2 = .ok true ↔ Derives (rulesOf c) w.root (w.sof :: u ++ [w.eof])) := by
  obtain ⟨root, g0, hR⟩ := hB.ready0
  obtain ⟨depth, hc⟩ := hB.processed
  obtain ⟨s0, h1⟩ := new_returns0 hB hleo hF
  have hs : w.sof < c.numSyms := Nat.lt_of_lt_of_le hB.sof_lt hc.syms_le
  have hlt : ∀ t ∈ u, t < c.numSyms := fun t h => Nat.lt_of_lt_of_le (ht t h).1 hc.syms_le
  have hacc := safe_accept' hleo hR hF (steps := parseSteps w.sof u) (parseSteps_tokens hs hlt)
    (parseSteps_hints fun t h => (ht t h).1) (by simp [parseSteps]) (by rw [parseSteps_length]; exact hlen)
    (fun _ => parseSteps_honest ht) (hterm.imp id fun h k hk => settles_without_cycle h hk)
  rw [h1, pure_bind] at hacc
  refine ⟨s0, h1, ?_⟩
  rcases hacc with ⟨⟨s, ok⟩, h2, h3, h4⟩ | ⟨hl, h2⟩
  · obtain ⟨m, hm, hml, hmt, hmk, hmf⟩ := sessionCount_of_session _ _ h2
    rw [parseSteps_length] at hml hmt hmf
    rw [← hR.sof] at hm
    obtain ⟨p1, p2, p3⟩ := parse_spec hi hm
    rw [parseSteps_accepts hR] at h3 h4
    by_cases hmm : m = u.length + 1
    · have hok : ok = true := hmt.2 hmm
      obtain ⟨b, hb, hb'⟩ := h3 hok
      have p1 := p1 hmm
      simp only at hb p1
      rw [hb, pure_bind] at p1
      exact .inl ⟨_, p1, by simpa using hb'⟩
    · have hok : ok = false := by
        have := mt hmt.1 hmm
        simpa using this
      have h4 := h4 hok
      cases m with
      | zero => exact .inl ⟨_, p2 rfl, by simpa using h4⟩
      | succ k =>
        obtain ⟨t, ht1, ht2⟩ := p3 k rfl (by omega)
        exact .inl ⟨_, ht2, by simpa using h4⟩
  · refine .inr ⟨hl, parse_diverges hi ?_⟩
    rw [hR.sof]
    exact h2

/-- C63. Whatever cycles the grammar has, `parse` on a fresh recognizer does not panic, and if it returns, it returns `Ok(true)`
exactly if the string is derived from the root. -/
theorem C63_verdict (hB : Prepared c n w E.g) (hleo : E.leo = false) (hF : SafeStart E.F f c.rules.length c.numSyms)
    {toks u : List Nat} (hi : Internals E.g toks u) (ht : Terminals c n u) (hlen : u.length + 1 < 2 ^ 64 - 1) :
    ∃ s0, Rec.new E f = pure s0 ∧ (∀ p, Rec.parse E s0 toks ≠ panicM p) ∧
      ∀ s res, Rec.parse E s0 toks = pure (s, res) → (res = .ok true ↔ Derives (rulesOf c) w.root (w.sof :: u ++ [w.eof])) := by
  obtain ⟨s0, h1, h2⟩ := parse_ends (lax := True) hB hleo hF hi ht hlen (.inl trivial)
  refine ⟨s0, h1, fun p hp => ?_, fun s res h => h2.of_eq h⟩
  rcases h2 with ⟨r, hr, _⟩ | ⟨_, hr⟩
  · rw [hr] at hp; exact panicM_ne_pure hp.symm
  · rw [hr] at hp
    exact absurd (show (none : Option (Except Panic _)) = some (.error _) from hp) (by simp)

/-- C63. `parse` returns, with the right verdict, if no predicted symbol on a cycle is completed anywhere in the string. -/
theorem C63_returns (hB : Prepared c n w E.g) (hleo : E.leo = false) (hF : SafeStart E.F f c.rules.length c.numSyms)
    {toks u : List Nat} (hi : Internals E.g toks u) (ht : Terminals c n u) (hlen : u.length + 1 < 2 ^ 64 - 1)
    (hno : ¬ CycleCompletes c w (parseSteps w.sof u)) :
    ∃ s0 s res, Rec.new E f = pure s0 ∧ Rec.parse E s0 toks = pure (s, res) ∧
      (res = .ok true ↔ Derives (rulesOf c) w.root (w.sof :: u ++ [w.eof])) := by
  obtain ⟨s0, h1, h2⟩ := parse_ends (lax := False) hB hleo hF hi ht hlen (.inr hno)
  obtain ⟨⟨s, res⟩, h3, h4⟩ := h2.returns
  exact ⟨s0, s, res, h1, h3, h4⟩

/-- C63. `parse` does not return if a symbol has infinitely many trees over a part of the string, up to position `m`, and there
is a sentential form with this symbol after the part before and, before the end, with the next token following: that is the
token announced by the hint. The tokens are counted with the start marker. -/
theorem C63_diverges (hB : Prepared c n w E.g) (hleo : E.leo = false) (hF : SafeStart E.F f c.rules.length c.numSyms)
    {toks u : List Nat} (hi : Internals E.g toks u) (ht : Terminals c n u) (hlen : u.length + 1 < 2 ^ 64 - 1)
    {A a m : Nat} {v : List Nat} (ham : a < m) (hm : m ≤ u.length + 1)
    (hd : Derives (rulesOf c) w.root ((w.sof :: u).take a ++ A :: v))
    (hinf : {t | TreeOf (rulesOf c) (inputOf (parseSteps w.sof u)) t A a m}.Infinite)
    (hv : E.lookahead = true → 1 < m → m ≤ u.length → v.head? = (w.sof :: u)[m]?) :
    ∃ s0, Rec.new E f = pure s0 ∧ Rec.parse E s0 toks = diverge := by
  obtain ⟨root, g0, hR⟩ := hB.ready0
  obtain ⟨depth, hc⟩ := hB.processed
  obtain ⟨s0, h1⟩ := new_returns0 hB hleo hF
  refine ⟨s0, h1, parse_diverges hi ?_⟩
  have hs : w.sof < c.numSyms := Nat.lt_of_lt_of_le hB.sof_lt hc.syms_le
  have hlt : ∀ t ∈ u, t < c.numSyms := fun t h => Nat.lt_of_lt_of_le (ht t h).1 hc.syms_le
  generalize hst : parseSteps w.sof u = steps at hinf
  have hsub : ∀ st ∈ steps.take m, st ∈ steps := fun st h => List.mem_of_mem_take h
  have hlen' : steps.length = u.length + 1 := by rw [← hst, parseSteps_length]
  have hl : (steps.take m).length = m := by rw [List.length_take]; omega
  have hin : ∀ q, q < m → inputOf steps q = inputOf (steps.take m) q := by
    intro q hq
    simp only [inputOf, List.getElem?_take, if_pos hq]
  have htok : TokensOK c.numSyms steps := by rw [← hst]; exact parseSteps_tokens hs hlt
  have htok' : TokensOK c.numSyms (steps.take m) := fun st hst => htok st (hsub st hst)
  have hhint : HintsIn n steps := by rw [← hst]; exact parseSteps_hints fun t h => (ht t h).1
  have hpa : Picks (inputOf (steps.take m)) 0 ((w.sof :: u).take a) := by
    have := (parseSteps_input (sof := w.sof) (u := u) m (v := (w.sof :: u).take m) (by simp [parseSteps_length])).2 rfl
    rw [hst, ← List.take_append_drop a ((w.sof :: u).take m)] at this
    have := (picks_append.1 this).1
    rwa [List.take_take, Nat.min_eq_left (by omega)] at this
  have hal : ((w.sof :: u).take a).length = a := by rw [List.length_take]; simp; omega
  have hcy := session_infinite (la := E.lookahead) (so := E.sorter) hR.ok hR.look (steps := steps.take m)
    (by intro h0; rw [h0] at hl; simp at hl; omega) (by omega)
    (stepsOK_of0 hR htok' fun st hst => hhint st (hsub st hst))
    (by
      rw [hR.start]
      intro st hst' t ht' he
      obtain ⟨k, hk⟩ := List.getElem?_of_mem (hsub st hst')
      rw [← hst] at hk
      obtain ⟨⟨x, h2, y, _, h3⟩, _⟩ := parseSteps_get hk
      rw [h3] at ht'
      simp only [List.mem_singleton] at ht'
      subst ht'
      simp only at he
      have hroot : ¬ Terminal (rulesOf c) w.root := fun h => h _ (List.mem_of_getElem? hR.rule) hR.start
      rcases List.mem_cons.1 (List.mem_of_getElem? h2) with h4 | h4
      · exact hroot (by rw [← he, h4]; exact hB.sofTerm)
      · exact hroot (by rw [← he]; exact (ht x h4).2))
    (A := A) (w := (w.sof :: u).take a) (v := v) hpa (by rw [hR.start]; exact hd)
    (by
      rw [hal, hl]
      refine hinf.mono fun t h => ?_
      exact TreeOf.congr h fun p _ h2 => hin p h2)
    (fun hla => by
      rw [← hst]
      exact parseSteps_hintsOK ht fun h2 h3 => hv hla h2 (by omega)) []
  have hrel := safe_rel hleo hR hF htok' []
  have hdiv := hrel.diverges hcy
  rw [h1, pure_bind] at hdiv
  have happ : Rec.session E steps s0 = (Rec.session E (steps.take m) s0 >>= fun r =>
      if r.2 then Rec.session E (steps.drop m) r.1 else pure (r.1, false)) := by
    conv_lhs => rw [← List.take_append_drop m steps]
    exact Rec.sessionWith_append _ _ _
  rw [hR.sof, hst, happ, hdiv]
  rfl

/-- C63. `parse` does not return on a string that has infinitely many derivation trees. -/
theorem C63_infinite (hB : Prepared c n w E.g) (hleo : E.leo = false) (hF : SafeStart E.F f c.rules.length c.numSyms)
    {toks u : List Nat} (hi : Internals E.g toks u) (ht : Terminals c n u) (hlen : u.length + 1 < 2 ^ 64 - 1)
    (hd : Derives (rulesOf c) w.root (w.sof :: w.innerRoot :: [w.eof]))
    (hinf : {t | TreeOf (rulesOf c) (inputOf (parseSteps w.sof u)) t w.innerRoot 1 (u.length + 1)}.Infinite) :
    ∃ s0, Rec.new E f = pure s0 ∧ Rec.parse E s0 toks = diverge := by
  obtain ⟨t, h⟩ := hinf.nonempty
  have := TreeOf.lt h
  exact C63_diverges hB hleo hF hi ht hlen (a := 1) (m := u.length + 1) (v := [w.eof]) this (Nat.le_refl _) (by simpa using hd) hinf
    (fun _ _ h => by omega)

/-- C63. With lookahead turned off, `parse` diverges exactly if somewhere in the string a predicted symbol on a cycle of
one-symbol rules is completed. -/
theorem C63_diverges_iff_no_lookahead (hB : Prepared c n w E.g) (hleo : E.leo = false) (hla : E.lookahead = false)
    (hF : SafeStart E.F f c.rules.length c.numSyms)
    {toks u : List Nat} (hi : Internals E.g toks u) (ht : Terminals c n u) (hlen : u.length + 1 < 2 ^ 64 - 1) :
    ∃ s0, Rec.new E f = pure s0 ∧ (Rec.parse E s0 toks = diverge ↔ CycleCompletes c w (parseSteps w.sof u)) := by
  by_cases hno : CycleCompletes c w (parseSteps w.sof u)
  · obtain ⟨m, A, hm, ⟨a, t, hp, hta⟩, hcyc⟩ := hno
    obtain ⟨x, v, hx1, hx2, hx3⟩ := hp.viable
    rw [parseSteps_length] at hm
    have ham := hta.lt
    have hx : x = (w.sof :: u).take a := by
      refine (parseSteps_input (sof := w.sof) (u := u) a (by simp [parseSteps_length]; omega)).1 ?_
      refine hx1.congr fun p _ h => ?_
      simp only [inputOf, List.getElem?_take, if_pos (show p < a by omega)]
    subst hx
    obtain ⟨s0, h1, h2⟩ := C63_diverges hB hleo hF hi ht hlen ham hm hx3 (OnCycle.infinite hcyc hta)
      (fun h => by rw [hla] at h; cases h)
    exact ⟨s0, h1, fun _ => ⟨m, A, by rw [parseSteps_length]; exact hm, ⟨a, t, hp, hta⟩, hcyc⟩, fun _ => h2⟩
  · obtain ⟨s0, s, res, h1, h2, _⟩ := C63_returns hB hleo hF hi ht hlen hno
    exact ⟨s0, h1, fun h => absurd (h.symm.trans h2) diverge_ne_pure, fun h => absurd h hno⟩

section
open Gearley.Example.Cyclic

theorem cyclic_internals (toks : List Nat) : Internals grammar toks toks := by
  unfold Internals
  rw [List.forall₂_same]
  intro t _
  have : grammar.symMaps.toInternal = [] := by decide +kernel
  unfold DefaultGrammar.toInternal Build.toInternal
  rw [if_pos this]

/-- Parsing `a` with `S ::= S | a` never returns, with lookahead. -/
example : ∃ s0, Rec.new env () = pure s0 ∧ Rec.parse env s0 [2] = diverge := by
  refine C63_infinite prepared rfl safe (u := [2]) (cyclic_internals _) (by unfold Terminals Terminal; decide) (by decide) ?_ ?_
  · exact .binary (r := ⟨3, 5, some 0⟩) (u := [1, 4]) (by decide) rfl
      (.binary (r := ⟨5, 1, some 4⟩) (u := [1]) (by decide) rfl (.refl 1) (.refl 4)) (.refl 0)
  · exact OnCycle.infinite cycle (t := .node 2 (.leaf 2 0)) (.unary (A := 4) (B := 2) (by decide) (.leaf (by decide)))

/-- The environment without lookahead. -/
def cyclicBlind : Env Unit Unit := { env with lookahead := false }

/-- The empty string is rejected: no symbol on the cycle is completed. -/
example : ∃ s0 s res, Rec.new env () = pure s0 ∧ Rec.parse env s0 [] = pure (s, res) ∧
    (res = .ok true ↔ Derives (rulesOf cfg) 3 [1, 0]) := by
  refine C63_returns prepared rfl safe (u := []) (cyclic_internals _) (by unfold Terminals Terminal; decide) (by decide) ?_
  obtain ⟨s0, h1, h2⟩ := C63_diverges_iff_no_lookahead (E := cyclicBlind) prepared rfl rfl safe (u := [])
    (cyclic_internals _) (by unfold Terminals Terminal; decide) (by decide)
  rw [← h2]
  have h3 : (do
    let s ← Rec.new cyclicBlind ()
    let (_, r) ← Rec.parseWith cyclicBlind (Rec.completeAllFuel cyclicBlind 20) s []
    pure r : M (Except ParseError Bool)) = pure (.ok false) := by decide +kernel
  rw [h1, pure_bind] at h3
  obtain ⟨r, h4, _⟩ := bind_eq_pure h3
  intro hd
  exact diverge_ne_pure (hd.symm.trans (Rec.parse_below 20 _ _ _ h4))

end
end Gearley.Props
