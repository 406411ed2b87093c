import Verif.Props.Recognition
import Verif.Proofs.Failed
import Verif.Proofs.Groups

/-!
# C32: the results of `parse_terminal_list` and `parse_tokenizing`
-/

namespace Gearley.Props
open Gearley.Spec
variable {σ ν : Type} {c : Cfg} {n : Nat} {w : WrappedRoot} {E : Env σ ν} {f : σ}

/-- After a session that got through, there are at most as many sets as positions, and one. -/
theorem session_sets (hB : Built c n w E.g) (hleo : E.leo = false)
    (hF : SafeStart E.F f c.rules.length c.numSyms) {steps : List Step} (htok : TokensOK c.numSyms steps)
    (hin : HintsIn n steps) (hlen : steps.length < 2 ^ 64) {s0 t : Rec σ ν} (h0 : Rec.new E f = pure s0)
    (h : Rec.session E steps s0 = pure (t, true)) : 1 ≤ t.medial.len ∧ t.medial.len ≤ steps.length + 1 := by
  obtain ⟨root, rank, g0, hR⟩ := hB.ready
  obtain ⟨r, h1, r0, hq, hr0, _, hml, _⟩ := safe_run hleo hR hF htok fun f0 =>
    new_rest (la := E.lookahead) (sorter := E.sorter) hR.ok hR.ranked hlen (stepsOK_of hR htok hin) f0
  rw [h0, pure_bind, h] at h1
  cases pure_inj_M h1
  obtain ⟨S, hrest, hSl, _⟩ := hq hr0.symm
  have : t.medial.len = S.length := by rw [← Vec2d.len_eq S, ← hrest.medial]; exact hml
  have := hrest.pos
  omega

/-- After a failed position there is no finished node. -/
theorem failed_finishedNode (hB : Built c n w E.g) (hleo : E.leo = false)
    (hF : SafeStart E.F f c.rules.length c.numSyms) {steps : List Step} (htok : TokensOK c.numSyms steps)
    (hin : HintsIn n steps) (hlen : steps.length < 2 ^ 64) {s0 s : Rec σ ν} (h0 : Rec.new E f = pure s0)
    (h : Rec.session E steps s0 = pure (s, false)) : Rec.finishedNode E s = pure none := by
  obtain ⟨k, t, h1, h2, h3, h4⟩ := Rec.session_failed h
  have hk : (steps.take k).length = k := by rw [List.length_take]; omega
  have := session_sets hB hleo hF (tokensOK_take htok) (hintsIn_take hin) (by omega) h0 h2
  exact Rec.finishedNode_exhausted h4 (by omega) (by omega)

theorem parseLoop_finished {i : Nat} {toks : List Nat} {s s' : Rec σ ν} {b : Bool} {ca : Rec σ ν → M (Rec σ ν)}
    (h : Rec.parseLoop E ca i toks s = pure (s', .ok b)) : Rec.isFinished E s' = pure b := by
  induction toks generalizing i s with
  | nil =>
    unfold Rec.parseLoop at h
    obtain ⟨b', h1, h2⟩ := bind_eq_pure h
    have := pure_inj_M h2
    simp only [Prod.mk.injEq, Except.ok.injEq] at this
    rw [← this.1, ← this.2]; exact h1
  | cons t rest ih =>
    unfold Rec.parseLoop at h
    obtain ⟨s1, _, h⟩ := bind_eq_pure h
    obtain ⟨x, _, h⟩ := bind_eq_pure h
    obtain ⟨s2, _, h⟩ := bind_eq_pure h
    obtain ⟨⟨s3, ok⟩, _, h⟩ := bind_eq_pure h
    cases ok with
    | true => exact ih h
    | false => have := pure_inj_M h; simp at this

theorem parse_finished {toks : List Nat} {s s' : Rec σ ν} {b : Bool} (h : Rec.parse E s toks = pure (s', .ok b)) :
    Rec.isFinished E s' = pure b := by
  unfold Rec.parse Rec.parseWith at h
  obtain ⟨⟨s1, ok⟩, _, h⟩ := bind_eq_pure h
  cases ok with
  | true => exact parseLoop_finished h
  | false => have := pure_inj_M h; simp at this

theorem finishedNode_of_isFinished {s : Rec σ ν} {b : Bool} (h : Rec.isFinished E s = pure b) :
    ∃ o, Rec.finishedNode E s = pure o ∧ (b = true ↔ ∃ x, o = some x) := by
  unfold Rec.isFinished at h
  obtain ⟨o, h1, h2⟩ := bind_eq_pure h
  cases pure_inj_M h2
  refine ⟨o, h1, ?_⟩
  cases o <;> simp

theorem tokenizeWords_ok {nameMap : List Char → Option Nat} {words : List (List Char)} {toks : List Nat} (h : words.map nameMap = toks.map some) :
    Rec.tokenizeWords nameMap words = .ok toks := by
  induction words generalizing toks with
  | nil =>
    cases toks with
    | nil => rfl
    | cons _ _ => simp at h
  | cons x words ih =>
    cases toks with
    | nil => simp at h
    | cons t toks =>
      simp only [List.map_cons, List.cons.injEq] at h
      unfold Rec.tokenizeWords
      simp only [h.1, ih h.2]

theorem tokenizeWords_bad {nameMap : List Char → Option Nat} {pre post : List (List Char)} {toks : List Nat} {bad : List Char} (h : pre.map nameMap = toks.map some)
    (hb : nameMap bad = none) : Rec.tokenizeWords nameMap (pre ++ bad :: post) = .error (.tokenize bad) := by
  induction pre generalizing toks with
  | nil => simp only [List.nil_append, Rec.tokenizeWords, hb]
  | cons x pre ih =>
    cases toks with
    | nil => simp at h
    | cons t toks =>
      simp only [List.map_cons, List.cons.injEq] at h
      rw [List.cons_append]
      unfold Rec.tokenizeWords
      simp only [h.1, ih h.2]

/-- C32, `parse_terminal_list`, for words that are all known. It returns `Ok(true)` exactly on sentences, and in every other
case `Err(Finish)`: never `Ok(false)`, and never the position of the failure. -/
theorem C32_terminal_list (hB : Built c n w E.g) (hleo : E.leo = false)
    (hF : SafeStart E.F f c.rules.length c.numSyms) {nameMap : List Char → Option Nat} {words : List (List Char)} {toks u : List Nat}
    (hw : words.map nameMap = toks.map some) (hi : Internals E.g toks u) (ht : Terminals c n u)
    (hlen : u.length + 1 < 2 ^ 64 - 1) :
    ∃ res, Rec.parseTerminalList E f nameMap words = pure res ∧
      (res = .ok true ↔ Derives (rulesOf c) w.root (w.sof :: u ++ [w.eof])) ∧ (res ≠ .ok true → res = .error .finish) := by
  obtain ⟨s0, s, res, h1, h2, h3⟩ := parse_cases hB hleo hF hi ht hlen
  have key : Rec.parseTerminalList E f nameMap words = (do
      match ← Rec.finishedNode E s with
      | some _ => pure res
      | none => pure (.error .finish)) := by
    unfold Rec.parseTerminalList Rec.parseTerminalListWith
    rw [h1, pure_bind, tokenizeWords_ok hw]
    show (Rec.parse E s0 toks >>= _) = _
    rw [h2, pure_bind]
    rfl
  rcases h3 with ⟨b, rfl, hb⟩ | ⟨h4, m, hm, _, hfail, hres⟩
  · obtain ⟨o, h5, h6⟩ := finishedNode_of_isFinished (parse_finished h2)
    rw [key, h5, pure_bind]
    cases o with
    | some x =>
      obtain rfl : b = true := h6.2 ⟨x, rfl⟩
      exact ⟨_, rfl, by simpa using hb, fun h => absurd rfl h⟩
    | none =>
      have : ¬ b = true := fun h => by simpa using h6.1 h
      exact ⟨_, rfl, by simpa using fun h => this (hb.2 h), fun _ => rfl⟩
  · obtain ⟨depth, hc⟩ := hB.processed
    have hs : w.sof < c.numSyms := Nat.lt_of_lt_of_le hB.sof_lt hc.syms_le
    have hlt : ∀ t ∈ u, t < c.numSyms := fun t h => Nat.lt_of_lt_of_le (ht t h).1 hc.syms_le
    have := failed_finishedNode hB hleo hF (tokensOK_take (k := m + 1) (parseSteps_tokens hs hlt))
      (hintsIn_take (k := m + 1) (parseSteps_hints fun t h => (ht t h).1))
      (by rw [List.length_take, parseSteps_length]; omega) h1 hfail
    rw [key, this, pure_bind]
    exact ⟨_, rfl, by simpa using h4, fun _ => rfl⟩

/-- C32, `parse_terminal_list`, when a word is unknown: the first such word is reported. -/
theorem C32_unknown_word (hB : Built c n w E.g) (hleo : E.leo = false)
    (hF : SafeStart E.F f c.rules.length c.numSyms) {nameMap : List Char → Option Nat} {pre post : List (List Char)} {toks : List Nat} {bad : List Char}
    (hw : pre.map nameMap = toks.map some) (hb : nameMap bad = none) :
    Rec.parseTerminalList E f nameMap (pre ++ bad :: post) = pure (.error (.tokenize bad)) := by
  obtain ⟨s0, s, res, h1, _⟩ := parse_cases hB hleo hF (toks := []) (u := []) .nil (fun t h => by simp at h) (by simp)
  unfold Rec.parseTerminalList Rec.parseTerminalListWith
  rw [h1, pure_bind, tokenizeWords_bad hw hb]

/-- The positions of `parse_tokenizing`: the start marker, then every character with the terminals of its classes. -/
def tokenizingSteps (w : WrappedRoot) (lex : Nat → List Nat) (input : List Nat) : List Step :=
  (.keep, [(w.sof, 0)]) :: input.map fun ch => (.keep, (lex ch).map fun x => (x, ch))

theorem noHints_take {k : Nat} {steps : List Step} (h : NoHints steps) : NoHints (steps.take k) :=
  fun st hst => h st (List.mem_of_mem_take hst)

/-- C32, `parse_tokenizing`. It returns `Ok(true)` exactly if every character can be read as one of its terminals such
that a sentence results; never `Ok(false)`. If it returns an error, then either this is `Finish` and more characters could
follow, or the start marker could not be read, or the character at the position reported is the first that cannot be
read. -/
theorem C32_tokenizing (hB : Built c n w E.g) (hleo : E.leo = false)
    (hF : SafeStart E.F f c.rules.length c.numSyms) {lexer lex : Nat → List Nat} {input : List Nat}
    (hi : ∀ ch ∈ input, Internals E.g (lexer ch) (lex ch)) (ht : ∀ ch ∈ input, Terminals c n (lex ch))
    (hch : ∀ ch ∈ input, ch < 2 ^ 32) (hlen : input.length + 1 < 2 ^ 64 - 1) :
    ∃ res, Rec.parseTokenizing E f lexer input = pure res ∧
      (res = .ok true ↔ Sentence c w (tokenizingSteps w lex input)) ∧ res ≠ .ok false ∧
      ∀ e, res = .error e →
        (e = .finish ∧ CanContinue c w (tokenizingSteps w lex input)) ∨
        (e = .parse [w.sof] 0 ∧ ¬ CanContinue c w ((tokenizingSteps w lex input).take 1)) ∨
        ∃ i ch, input[i]? = some ch ∧ e = .parse (lexer ch) i ∧
          CanContinue c w ((tokenizingSteps w lex input).take (i + 1)) ∧
          ¬ CanContinue c w ((tokenizingSteps w lex input).take (i + 2)) := by
  obtain ⟨root, rank, g0, hR⟩ := hB.ready
  obtain ⟨depth, hc⟩ := hB.processed
  have hs : w.sof < c.numSyms := Nat.lt_of_lt_of_le hB.sof_lt hc.syms_le
  have hlen' : (tokenizingSteps w lex input).length = input.length + 1 := by simp [tokenizingSteps]
  have htok : TokensOK c.numSyms (tokenizingSteps w lex input) := by
    intro st hst t htt
    rcases List.mem_cons.1 hst with rfl | hst
    · simp only [List.mem_singleton] at htt
      subst htt
      exact ⟨hs, by simp⟩
    · obtain ⟨ch, h1, rfl⟩ := List.mem_map.1 hst
      obtain ⟨x, h2, rfl⟩ := List.mem_map.1 htt
      exact ⟨Nat.lt_of_lt_of_le (ht ch h1 x h2).1 hc.syms_le, hch ch h1⟩
  have hno : NoHints (tokenizingSteps w lex input) := by
    intro st hst x
    rcases List.mem_cons.1 hst with rfl | hst
    · simp
    · obtain ⟨ch, h1, rfl⟩ := List.mem_map.1 hst
      simp
  have hroot : ∀ st ∈ tokenizingSteps w lex input, ∀ t ∈ st.2, t.1 ≠ w.root := by
    intro st hst t htt
    have hterm : Terminal (rulesOf c) t.1 := by
      rcases List.mem_cons.1 hst with rfl | hst
      · simp only [List.mem_singleton] at htt
        subst htt
        exact hB.sofTerm
      · obtain ⟨ch, h1, rfl⟩ := List.mem_map.1 hst
        obtain ⟨x, h2, rfl⟩ := List.mem_map.1 htt
        exact (ht ch h1 x h2).2
    intro he
    exact hterm _ (List.mem_of_getElem? hR.rule) (show E.g.startSym = t.1 by rw [hR.start]; exact he.symm)
  have hC05 : ∀ k s0 s b, Rec.new E f = pure s0 → Rec.session E ((tokenizingSteps w lex input).take k) s0 = pure (s, b) →
      (b = true ↔ CanContinue c w ((tokenizingSteps w lex input).take k)) := by
    intro k s0 s b h0 h1
    obtain ⟨r, h2, h3⟩ := C05_viable_prefix hB hleo hF (tokensOK_take (k := k) htok)
      (fun st hst => hroot st (List.mem_of_mem_take hst)) (noHints_take hno)
      (by rw [List.length_take, hlen']; omega)
    rw [h0, pure_bind, h1] at h2
    cases pure_inj_M h2
    exact h3
  obtain ⟨⟨s, ok⟩, h1, h2, h3⟩ := C06_alternative_tokens hB hleo hF htok
    (fun st hst x hx => absurd hx (hno st hst x))
    (fun i st x hst hx => absurd hx (hno st (List.mem_of_getElem? hst) x)) (by simp [tokenizingSteps]) (by rw [hlen']; omega)
  obtain ⟨s0, h0, h1⟩ := bind_eq_pure h1
  obtain ⟨m, hm, hml, hmt, hmk, hmf⟩ := sessionCount_of_session _ _ h1
  have hall := hC05 (input.length + 1) s0 s ok h0 (by rw [List.take_of_length_le (by omega)]; exact h1)
  rw [List.take_of_length_le (by omega)] at hall
  rw [hlen'] at hml hmt hmf
  simp only at h2 h3 hm hmt hmf
  unfold tokenizingSteps sessionCount at hm
  obtain ⟨⟨s1, ok1⟩, h4, h5⟩ := bind_eq_pure hm
  have h4' : Rec.readSof E (Rec.completeAll E) s0 = pure (s1, ok1) := by
    rw [← h4, position_one, ← hR.sof]; rfl
  unfold Rec.parseTokenizing Rec.parseTokenizingWith
  rw [h0, pure_bind, h4', pure_bind]
  cases ok1 with
  | false =>
    simp only [Bool.false_eq_true, if_false] at h5 ⊢
    have := pure_inj_M h5
    simp only [Prod.mk.injEq] at this
    obtain ⟨rfl, rfl⟩ := this
    have hok : ok = false := by
      have := mt hmt.1 (by omega)
      simpa using this
    have hcc := hC05 1 s0 s1 false h0 (hmf (by omega))
    refine ⟨_, rfl, by simpa using h3 hok, by simp, ?_⟩
    rintro e he
    cases he
    exact .inr (.inl ⟨by rw [hR.sof], by simpa using hcc⟩)
  | true =>
    simp only [if_true] at h5 ⊢
    obtain ⟨⟨s2, k⟩, h6, h7⟩ := bind_eq_pure h5
    have := pure_inj_M h7
    simp only [Prod.mk.injEq] at this
    obtain ⟨rfl, rfl⟩ := this
    obtain ⟨p1, p2⟩ := charLoop_spec input hi 0 s1 (s' := s2) (n := k) h6
    by_cases hk : k = input.length
    · have hok : ok = true := hmt.2 (by omega)
      obtain ⟨b, h8, h9⟩ := h2 hok
      obtain ⟨o, h10, h11⟩ := finishedNode_of_isFinished h8
      rw [p1 hk, pure_bind]
      simp only
      rw [h8, pure_bind, h10, pure_bind]
      cases o with
      | some x =>
        obtain rfl : b = true := h11.2 ⟨x, rfl⟩
        exact ⟨_, rfl, by simpa using h9, by simp, by simp⟩
      | none =>
        have hb : ¬ b = true := fun h => by simpa using h11.1 h
        refine ⟨_, rfl, by simpa using fun h => hb (h9.2 h), by simp, ?_⟩
        rintro e he
        cases he
        exact .inl ⟨rfl, hall.1 hok⟩
    · have hok : ok = false := by
        have := mt hmt.1 (by omega)
        simpa using this
      obtain ⟨ch, h8, h9⟩ := p2 hk
      rw [h9, pure_bind]
      refine ⟨_, rfl, by simpa using h3 hok, by simp, ?_⟩
      rintro e he
      cases he
      obtain ⟨s', hs'⟩ := hmk (k + 1) (Nat.le_refl _)
      refine .inr (.inr ⟨k, ch, h8, by rw [Nat.zero_add], (hC05 _ s0 s' true h0 hs').1 rfl, ?_⟩)
      have := hC05 (k + 2) s0 s2 false h0 (hmf (by omega))
      simpa using this

/-! ### Examples -/

section
open Gearley.Example

/-- The names of the tokens: `a` and `+`. -/
def wordMap (word : List Char) : Option Nat := if word = ['a'] then some 5 else if word = ['+'] then some 2 else none

/-- The failed position is not reported: `parse` says that the tokens `a plus plus a` fail at token 2, and
`parse_terminal_list` says `Finish`. -/
theorem C32_position_lost : Rec.parseTerminalList env () wordMap [['a'], ['+'], ['+'], ['a']] = pure (.error .finish) ∧
    ∃ s0 s, Rec.new env () = pure s0 ∧ Rec.parse env s0 [5, 2, 2, 5] = pure (s, .error (.parse [2] 2)) := by
  have ht : Terminals cfg 6 [5, 2, 2, 5] := by
    have : ∀ t ∈ [5, 2, 2, 5], t < 6 ∧ ∀ r ∈ rulesOf cfg, r.lhs ≠ t := by decide
    exact fun t h => this t h
  obtain ⟨s0, s, res, h1, h2, h3⟩ := C01_parse_language built rfl safe (internals [5, 2, 2, 5]) ht (by decide)
  have hres : res = .error (.parse [2] 2) := by
    have h4 : run [5, 2, 2, 5] = pure (.error (.parse [2] 2)) := by decide +kernel
    obtain ⟨s0', h5, h6⟩ := bind_eq_pure h4
    obtain ⟨⟨s', r⟩, h7, h8⟩ := bind_eq_pure h6
    cases pure_inj_M h8
    rw [h1] at h5
    cases pure_inj_M h5
    have := Rec.parse_below 50 s0 [5, 2, 2, 5] _ h7
    rw [h2] at this
    exact congrArg Prod.snd (pure_inj_M this)
  refine ⟨?_, s0, s, h1, by rw [h2, hres]⟩
  obtain ⟨res', h4, h5, h6⟩ := C32_terminal_list built rfl safe (nameMap := wordMap) (words := [['a'], ['+'], ['+'], ['a']]) rfl
    (internals [5, 2, 2, 5]) ht (by decide)
  rw [h4, h6]
  rw [Ne, h5, ← h3, hres]
  simp

-- an accepted list of words, an unknown word
example : Rec.parseTerminalList env () wordMap [['a'], ['+'], ['a']] = pure (.ok true) := by
  obtain ⟨res, h1, h2, _⟩ := C32_terminal_list built rfl safe (nameMap := wordMap) (words := [['a'], ['+'], ['a']]) rfl
    (internals [5, 2, 5]) example_terminals (by decide)
  rw [h1, h2.2 example_derives]
example : Rec.parseTerminalList env () wordMap [['a'], ['-'], ['a'], ['*']] = pure (.error (.tokenize ['-'])) :=
  C32_unknown_word built rfl safe (pre := [['a']]) (toks := [5]) rfl rfl

/-- Character 97 is `a`, 43 is `plus`, 63 can be either, others are nothing. -/
def charMap (ch : Nat) : List Nat := if ch = 97 then [5] else if ch = 43 then [2] else if ch = 63 then [5, 2] else []

theorem charMap_terminals (ch : Nat) : Terminals cfg 6 (charMap ch) := by
  have h : ∀ t ∈ [5, 2], t < 6 ∧ ∀ r ∈ rulesOf cfg, r.lhs ≠ t := by decide
  intro t ht
  refine h t ?_
  unfold charMap at ht
  split at ht
  · simp at ht; simp [ht]
  · split at ht
    · simp at ht; simp [ht]
    · split at ht
      · exact ht
      · simp at ht

-- the hypotheses of C32_tokenizing are met by any short input; `a?a` is accepted, `a+b` fails at the character 2
example (input : List Nat) (h1 : ∀ ch ∈ input, ch < 2 ^ 32) (h2 : input.length < 1000) :
    ∃ res, Rec.parseTokenizing env () charMap input = pure res :=
  let ⟨res, h, _⟩ := C32_tokenizing built rfl safe (fun ch _ => internals (charMap ch)) (fun ch _ => charMap_terminals ch) h1
    (by omega)
  ⟨res, h⟩
example : Rec.parseTokenizingWith env (Rec.completeAllFuel env 50) () charMap [97, 63, 97] = pure (.ok true) := by
  decide +kernel
example : Rec.parseTokenizingWith env (Rec.completeAllFuel env 50) () charMap [97, 43, 98] = pure (.error (.parse [] 2)) := by
  decide +kernel
example : Rec.parseTokenizingWith env (Rec.completeAllFuel env 50) () charMap [97, 43] = pure (.error .finish) := by
  decide +kernel

end

end Gearley.Props
