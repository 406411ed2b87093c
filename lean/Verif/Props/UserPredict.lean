import Verif.Props.UserPosition
import Verif.Props.Observers

/-!
# C05, C09 and C29 in terms of the user's grammar

A session that reads the start marker and then, at each position, a set of tokens: `lexer ch` for the `ch` at this position.
-/

namespace Gearley.Props
open Gearley.Spec Build Gearley.Calculator Gearley.Calculator.Precedenced
variable {U : URules} {N : Names U} {w : WrappedRoot} {g0 : Nat} {c nulling : Cfg} {X : CfgCrate} {σ ν : Type}

/-- The steps of a session: the start marker, then the tokens at each position, by their numbers in the parser. -/
def userSteps (g : DefaultGrammar) (lex : Nat → List Nat) (input : List Nat) : List Step :=
  (.keep, [(g.sofSym, 0)]) :: input.map fun ch => (.keep, (lex ch).map fun x => (x, ch))

theorem internals_unique {g : DefaultGrammar} {toks u v : List Nat} (h : Internals g toks u) (h' : Internals g toks v) : u = v := by
  induction h generalizing v with
  | nil => cases h'; rfl
  | cons h1 _ ih =>
    cases h' with
    | cons h2 h3 =>
      rw [h1] at h2
      have := pure_inj_M h2
      simp only [Option.some.injEq] at this
      rw [this, ih h3]

/-- The steps can be used. -/
theorem tokenizingSteps_ok {c : Cfg} {n : Nat} {w : WrappedRoot} {E : Env σ ν} (hB : Built c n w E.g) {lex : Nat → List Nat} {input : List Nat}
    (ht : ∀ ch ∈ input, Terminals c n (lex ch)) (hch : ∀ ch ∈ input, ch < 2 ^ 32) :
    TokensOK c.numSyms (tokenizingSteps w lex input) ∧ NoHints (tokenizingSteps w lex input) ∧
      ∀ st ∈ tokenizingSteps w lex input, ∀ t ∈ st.2, t.1 ≠ w.root := by
  obtain ⟨root, rank, g0, hR⟩ := hB.ready
  obtain ⟨depth, hc⟩ := hB.processed
  have hs : w.sof < c.numSyms := Nat.lt_of_lt_of_le hB.sof_lt hc.syms_le
  refine ⟨?_, ?_, ?_⟩
  · intro st hst t htt
    rcases List.mem_cons.1 hst with rfl | hst
    · simp only [List.mem_singleton] at htt
      subst htt
      exact ⟨hs, by simp⟩
    · obtain ⟨ch, h1, rfl⟩ := List.mem_map.1 hst
      obtain ⟨x, h2, rfl⟩ := List.mem_map.1 htt
      exact ⟨Nat.lt_of_lt_of_le (ht ch h1 x h2).1 hc.syms_le, hch ch h1⟩
  · intro st hst x
    rcases List.mem_cons.1 hst with rfl | hst
    · simp
    · obtain ⟨ch, h1, rfl⟩ := List.mem_map.1 hst
      simp
  · intro st hst t htt
    have hterm : Terminal (rulesOf c) t.1 := by
      rcases List.mem_cons.1 hst with rfl | hst
      · simp only [List.mem_singleton] at htt
        subst htt
        exact hB.sofTerm
      · obtain ⟨ch, h1, rfl⟩ := List.mem_map.1 hst
        obtain ⟨x, h2, rfl⟩ := List.mem_map.1 htt
        exact (ht ch h1 x h2).2
    intro he
    exact hterm _ (List.mem_of_getElem? hR.rule) (show E.g.startSym = t.1 by rw [hR.start]; exact he.symm)

theorem reading_tokens {lexer : Nat → List Nat} {input toks : List Nat} (ht : ∀ ch ∈ input, Tokens U c (lexer ch)) (hr : Reading lexer input toks) :
    Tokens U c toks := by
  induction hr with
  | nil => exact fun t h => (by cases h)
  | cons h1 _ ih =>
    intro t hm
    rcases List.mem_cons.1 hm with rfl | hm
    · exact ht _ (by simp) t h1
    · exact ih (fun ch hc => ht ch (by simp [hc])) t hm

/-- C05, C09 and C29 for the user's grammar, without hints. After any sets of tokens: all positions succeed if and only if the tokens can
be chosen such that they begin a string of the language (or nothing was read). Then `predicted_symbols` contains, among the tokens,
exactly those that can come next, and the tokens in `expected_terminals` can come next. -/
theorem C09_user {E : Env σ ν} {f : σ} (h : UserParser X U N w g0 c nulling E.g) (htrim : Trimmed U N c) (hleo : E.leo = false)
    (hF : ∀ dots syms, SafeStart E.F f dots syms) {lexer lex : Nat → List Nat} {input : List Nat} (ht : ∀ ch ∈ input, Tokens U c (lexer ch))
    (hlex : ∀ ch ∈ input, Internals E.g (lexer ch) (lex ch)) (hch : ∀ ch ∈ input, ch < 2 ^ 32) (hlen : input.length + 2 < 2 ^ 64) :
    ∃ r, (Rec.new E f >>= Rec.session E (userSteps E.g lex input)) = pure r ∧
      (r.2 = true ↔ input = [] ∨ ∃ toks, Reading lexer input toks ∧ Begins U w.innerRoot toks) ∧
      (r.2 = true → (∃ l, r.1.beginEarleme.predictedSymbols = pure l ∧ ∀ t x, Tokens U c [t] → E.g.toInternal t = pure (some x) →
        (x ∈ l ↔ ∃ toks, Reading lexer input toks ∧ Begins U w.innerRoot (toks ++ [t]))) ∧
        ∃ l, Rec.expectedTerminals E r.1.beginEarleme = pure l ∧ ∀ t x, Tokens U c [t] → E.g.toInternal t = pure (some x) → x ∈ l →
          ∃ toks, Reading lexer input toks ∧ Begins U w.innerRoot (toks ++ [t])) := by
  obtain ⟨c', n, w', int, hB, hi, hterm, hd⟩ := viable_setup h.crate h.ok h.acyclic h.made h.wrap
  have ht' := fun ch hc => (ht ch hc).terminal h.bin
  obtain ⟨root, rank, g1, hR⟩ := hB.ready
  have hsteps : userSteps E.g lex input = tokenizingSteps w' (fun ch => (lexer ch).map int) input := by
    unfold userSteps tokenizingSteps
    rw [hR.sof]
    congr 1
    refine List.map_congr_left fun ch hc => ?_
    rw [internals_unique (hlex ch hc) (internals_map fun t h => hi t (ht' ch hc t h).1)]
  have htt : ∀ ch ∈ input, Terminals c' n ((lexer ch).map int) := by
    intro ch hc x hx
    obtain ⟨t, h, rfl⟩ := List.mem_map.1 hx
    exact hterm t (ht' ch hc t h).1 (ht' ch hc t h).2
  obtain ⟨htok, hno, hroot⟩ := tokenizingSteps_ok hB htt hch
  have hl : (tokenizingSteps w' (fun ch => (lexer ch).map int) input).length = input.length + 1 := by simp [tokenizingSteps]
  have hviable : ∀ toks, Tokens U c toks → toks ≠ [] → (ViablePrefix (rulesOf c') w'.root (w'.sof :: toks.map int) ↔ Begins U w.innerRoot toks) := by
    intro toks hT hne
    rw [hd toks fun t h' => (hT.terminal h.bin t h').1]
    exact viable_iff_begins h.toParserOf htrim hT hne
  have hnext : ∀ t x, Tokens U c [t] → E.g.toInternal t = pure (some x) →
      ((∃ u v, u.length = (tokenizingSteps w' (fun ch => (lexer ch).map int) input).length ∧
        Picks (inputOf (tokenizingSteps w' (fun ch => (lexer ch).map int) input)) 0 u ∧ Derives (rulesOf c') w'.root (u ++ x :: v)) ↔
      ∃ toks, Reading lexer input toks ∧ Begins U w.innerRoot (toks ++ [t])) ∧ x < n := by
    intro t x hT hx
    have hT' := hT.terminal h.bin t (by simp)
    have hx' := hi t hT'.1
    rw [hx] at hx'
    have := pure_inj_M hx'
    simp only [Option.some.injEq] at this
    subst this
    refine ⟨⟨?_, ?_⟩, (hterm t hT'.1 hT'.2).1⟩
    · rintro ⟨u, v, hu, hp, hD⟩
      obtain ⟨toks, rfl, hr⟩ := picks_reading (by rw [hu, hl]) hp
      refine ⟨toks, hr, (hviable (toks ++ [t]) ?_ (by simp)).1 ⟨v, by simpa using hD⟩⟩
      intro s hs
      rcases List.mem_append.1 hs with hs | hs
      · exact reading_tokens ht hr s hs
      · exact hT s hs
    · rintro ⟨toks, hr, hb⟩
      obtain ⟨v, hv⟩ := (hviable (toks ++ [t]) (by
        intro s hs
        rcases List.mem_append.1 hs with hs | hs
        · exact reading_tokens ht hr s hs
        · exact hT s hs) (by simp)).2 hb
      refine ⟨_, v, ?_, reading_picks hr, by simpa using hv⟩
      rw [hl]
      have := hr.length_eq
      simp [this]
  obtain ⟨r, h1, h2⟩ := C05_viable_prefix hB hleo (hF _ _) htok hroot hno (by rw [hl]; omega)
  obtain ⟨r', h1', h3⟩ := C09_predicted_symbols hB hleo (hF _ _) htok hroot hno (by rw [hl]; omega)
  rw [h1] at h1'
  cases pure_inj_M h1'
  obtain ⟨r', h1', h4⟩ := C29_sound hB hleo (hF _ _) htok hno (by rw [hl]; omega)
  rw [h1] at h1'
  cases pure_inj_M h1'
  rw [hsteps]
  refine ⟨r, h1, h2.trans ⟨?_, ?_⟩, fun hok => ⟨?_, ?_⟩⟩
  · rintro ⟨u, hu, hp, hv⟩
    obtain ⟨toks, rfl, hr⟩ := picks_reading (by rw [hu, hl]) hp
    by_cases hnil : input = []
    · exact .inl hnil
    · refine .inr ⟨toks, hr, (hviable toks (reading_tokens ht hr) ?_).1 hv⟩
      rintro rfl
      exact hnil (List.length_eq_zero_iff.1 (by simpa using hr.length_eq))
  · intro hb
    have : ∃ toks, Reading lexer input toks ∧ ViablePrefix (rulesOf c') w'.root (w'.sof :: toks.map int) := by
      rcases hb with rfl | ⟨toks, hr, more, hy⟩
      · exact ⟨[], .nil, (hd [] fun t h => by cases h).2 (viable_sof h.wrap)⟩
      · exact ⟨toks, hr, (hd toks fun t h' => ((reading_tokens ht hr).terminal h.bin t h').1).2 (viable_of_yields h.toParserOf hy)⟩
    obtain ⟨toks, hr, hv⟩ := this
    refine ⟨_, ?_, reading_picks hr, hv⟩
    rw [hl]
    have := hr.length_eq
    simp [this]
  · obtain ⟨l, h5, h6⟩ := h3 hok
    refine ⟨l, h5, fun t x hT hx => ?_⟩
    obtain ⟨h7, h8⟩ := hnext t x hT hx
    rw [h6, h7]
    exact ⟨fun h => h.2, fun h => ⟨h8, h⟩⟩
  · obtain ⟨l, h5, h6⟩ := h4 hok
    exact ⟨l, h5, fun t x hT hx hm => (hnext t x hT hx).1.1 (h6 x hm)⟩

/-! ### Examples -/

-- a parser of arithmetic expressions: at the beginning `(` is predicted and `)` is not
example : ∃ (E : Env Compact.Bocage Nat) (b : Compact.Bocage), fromBinarized textbookCrate calcCfg Example.noRules = pure E.g ∧
    ∃ r l, (Rec.new E b >>= Rec.session E (userSteps E.g (fun _ => []) [])) = pure r ∧ r.1.beginEarleme.predictedSymbols = pure l ∧
      (∀ x, E.g.toInternal 8 = pure (some x) → x ∈ l) ∧ ∀ x, E.g.toInternal 9 = pure (some x) → x ∉ l := by
  obtain ⟨g, h1, h2⟩ := calc_parser textbookCrate_ok
  obtain ⟨-, b, hb⟩ := C36_made textbookCrate_ok calc_ok h1.made (by decide) (by decide)
  obtain ⟨r, h3, h4, h5⟩ := C09_user (E := { g := g, F := Compact.forest, leo := false, sorter := Example.sorter }) (f := b) h1
    (Trimmed.of_noEmpty calc_noEmpty calc_productive) rfl (fun dots syms => (C02_forests dots syms).2.2 b) (lexer := fun _ => []) (lex := fun _ => [])
    (input := []) (fun ch hc => by cases hc) (fun ch hc => by cases hc) (by decide) (by decide)
  obtain ⟨⟨l, h6, h7⟩, _⟩ := h5 (h4.2 (.inl rfl))
  refine ⟨{ g := g, F := Compact.forest, leo := false, sorter := Example.sorter }, b, h1.made, r, l, h3, h6, fun x hx => ?_, fun x hx hm => ?_⟩
  · exact (h7 8 x (calc_tokens (by decide)) hx).2 ⟨[], .nil, calc_paren⟩
  · obtain ⟨toks, hr, hb⟩ := (h7 9 x (calc_tokens (by decide)) hx).1 hm
    cases hr
    exact calc_no_paren hb

end Gearley.Props
