import Verif.Proofs.UserPrefix
import Verif.Props.UserDrivers
import Verif.Props.LRCalculator

/-!
# C04 and C32: the reported positions in terms of the user's grammar

`C04_error_position` and `C32_tokenizing` speak of the binarized, wrapped and renumbered grammar and of sentential forms. Here it is the
user's grammar, and what may follow are tokens.
-/

namespace Gearley.Props
open Gearley.Spec Build Gearley.Calculator Gearley.Calculator.Precedenced
variable {U : URules} {N : Names U} {w : WrappedRoot} {g0 : Nat} {c nulling : Cfg} {X : CfgCrate} {σ ν : Type}

/-- More tokens can follow such that a string of the user's grammar results. -/
def Begins (U : URules) (root : Nat) (p : List Nat) : Prop := ∃ more, Yields U root (p ++ more)

theorem Tokens.take {toks : List Nat} (h : Tokens U c toks) (k : Nat) : Tokens U c (toks.take k) := fun t ht => h t (List.mem_of_mem_take ht)

theorem viable_iff_begins {g : DefaultGrammar} (h : ParserOf X U N w g0 c nulling g) (htrim : Trimmed U N c) {p : List Nat} (ht : Tokens U c p)
    (hne : p ≠ []) : ViablePrefix (rulesOf c) w.root (w.sof :: p) ↔ Begins U w.innerRoot p :=
  ⟨yields_of_viable h htrim ht hne, fun ⟨_, hy⟩ => viable_of_yields h hy⟩

/-- C04 for the user's grammar, whatever cycles it has. `parse` may not return then (C63). If it does, it returns an error if and only
if the tokens do not begin a string of the language, and the position is as in `C04_user`. -/
theorem C04_user_cyclic {E : Env σ ν} {f : σ} (h : ParserOf X U N w g0 c nulling E.g) (htrim : Trimmed U N c) (hleo : E.leo = false)
    (hF : ∀ dots syms, SafeStart E.F f dots syms) {toks : List Nat} (ht : Tokens U c toks) (hlen : toks.length + 1 < 2 ^ 64 - 1)
    {s0 s : Rec σ ν} {res : Except ParseError Bool} (h1 : Rec.new E f = pure s0) (h2 : Rec.parse E s0 toks = pure (s, res)) :
    ((∃ b, res = .ok b) ↔ toks = [] ∨ Begins U w.innerRoot toks) ∧
    ∀ e, res = .error e → ∃ i t, toks[i]? = some t ∧ e = .parse [t] i ∧ (i = 0 ∨ Begins U w.innerRoot (toks.take i)) ∧
      ¬ Begins U w.innerRoot (toks.take (i + 2)) ∧ (E.lookahead = false → ¬ Begins U w.innerRoot (toks.take (i + 1))) := by
  obtain ⟨c', n, w', int, hB, -, hi, hterm, hd⟩ := viable_setup0 h.crate h.ok h.made h.wrap
  have ht' := ht.terminal h.bin
  have hin : Internals E.g toks (toks.map int) := internals_map fun t h => hi t (ht' t h).1
  have htt : Terminals c' n (toks.map int) := by
    intro x hx
    obtain ⟨t, h, rfl⟩ := List.mem_map.1 hx
    exact hterm t (ht' t h).1 (ht' t h).2
  have hv : ∀ k, ViablePrefix (rulesOf c') w'.root (w'.sof :: (toks.map int).take k) ↔ ViablePrefix (rulesOf c) w.root (w.sof :: toks.take k) := by
    intro k
    rw [← List.map_take]
    exact hd _ fun t h => (ht' t (List.mem_of_mem_take h)).1
  rcases parse_fails0 hB hleo (hF _ _) hin htt (by simpa using hlen) h1 h2 with ⟨b, rfl, hb⟩ | ⟨m, hm, hbefore, hafter, hres⟩
  · refine ⟨⟨fun _ => ?_, fun _ => ⟨b, rfl⟩⟩, fun e he => (by cases he)⟩
    by_cases hnil : toks = []
    · exact .inl hnil
    · exact .inr (yields_of_viable h htrim ht hnil ((hd _ fun t h => (ht' t h).1).1 hb))
  rcases hres with ⟨rfl, rfl⟩ | ⟨i, t, rfl, h4, rfl⟩
  · obtain ⟨v, hv0⟩ := (hv 0).2 (viable_sof h.wrap)
    exact absurd (by simpa using hv0) (hafter v (by omega))
  · have hlt := getElem?_lt h4
    have hlast : ∀ k, i + 2 ≤ k → ¬ Begins U w.innerRoot (toks.take k) := by
      rintro k hk ⟨more, hy⟩
      obtain ⟨v, hv'⟩ := (hv k).2 (viable_of_yields h hy)
      refine hafter (((toks.map int).drop (i + 1)).take (k - (i + 1)) ++ v) ?_ ?_
      · intro _ _ hl
        have hk1 : i + 1 < (toks.map int).length := by omega
        rw [List.getElem?_cons_succ, List.drop_eq_getElem_cons hk1, List.getElem?_eq_getElem hk1, show k - (i + 1) = k - (i + 2) + 1 by omega]
        rfl
      · rw [List.take_succ_cons, ← List.append_assoc, List.cons_append, List.cons_append, ← List.take_add, show i + 1 + (k - (i + 1)) = k by omega]
        exact hv'
    refine ⟨⟨fun ⟨b, hb⟩ => (by cases hb), ?_⟩, ?_⟩
    · rintro (rfl | hb)
      · simp at hlt
      · exfalso
        refine hlast (toks.length + 2) (by omega) ?_
        rwa [List.take_of_length_le (by omega)]
    · intro e he
      cases he
      refine ⟨i, t, h4, rfl, ?_, hlast _ (Nat.le_refl _), ?_⟩
      · by_cases h0 : i = 0
        · exact .inl h0
        · refine .inr (yields_of_viable h htrim (ht.take i) ?_ ((hv i).1 (by simpa using hbefore)))
          intro hnil
          have h8 := congrArg List.length hnil
          rw [List.length_take, List.length_nil] at h8
          omega
      · rintro hla ⟨more, hy⟩
        obtain ⟨v, hv'⟩ := (hv (i + 1)).2 (viable_of_yields h hy)
        exact hafter v (fun h => by rw [hla] at h; cases h) (by simpa using hv')

/-- C04 for the user's grammar. `parse` returns an error if and only if the tokens do not begin a string of the language. The error
names a token and its position `i`, counted without the start marker. The tokens before it begin a string of the language. With this
token and the one after it, they do not; if look-ahead is off, they do not with this token. (An empty string of tokens is never an
error, even if the language is empty.) -/
theorem C04_user {E : Env σ ν} {f : σ} (h : UserParser X U N w g0 c nulling E.g) (htrim : Trimmed U N c) (hleo : E.leo = false)
    (hF : ∀ dots syms, SafeStart E.F f dots syms) {toks : List Nat} (ht : Tokens U c toks) (hlen : toks.length + 1 < 2 ^ 64 - 1) :
    ∃ s0 s res, Rec.new E f = pure s0 ∧ Rec.parse E s0 toks = pure (s, res) ∧
      ((∃ b, res = .ok b) ↔ toks = [] ∨ Begins U w.innerRoot toks) ∧
      ∀ e, res = .error e → ∃ i t, toks[i]? = some t ∧ e = .parse [t] i ∧ (i = 0 ∨ Begins U w.innerRoot (toks.take i)) ∧
        ¬ Begins U w.innerRoot (toks.take (i + 2)) ∧ (E.lookahead = false → ¬ Begins U w.innerRoot (toks.take (i + 1))) := by
  obtain ⟨s0, s, res, h1, h2, _⟩ := C55_accepts h hleo hF ht hlen
  exact ⟨s0, s, res, h1, h2, C04_user_cyclic h.toParserOf htrim hleo hF ht hlen h1 h2⟩

theorem reading_take {input : List Nat} {k : Nat} {w : WrappedRoot} {lex : Nat → List Nat} :
    (tokenizingSteps w lex input).take (k + 1) = tokenizingSteps w lex (input.take k) := by
  simp [tokenizingSteps, List.map_take]

/-- C32, `parse_tokenizing`, the errors. `Finish`: the characters can be read as the beginning of a string of the language, and as no
string of it. Otherwise the error names a position and the terminals of the character there: those before can be read as such a
beginning, but not together with this one. Positions are exact. -/
theorem C32_tokenizing_position {E : Env σ ν} {f : σ} (h : UserParser X U N w g0 c nulling E.g) (htrim : Trimmed U N c) (hleo : E.leo = false)
    (hF : ∀ dots syms, SafeStart E.F f dots syms) {lexer : Nat → List Nat} {input : List Nat} (ht : ∀ ch ∈ input, Tokens U c (lexer ch))
    (hch : ∀ ch ∈ input, ch < 2 ^ 32) (hlen : input.length + 1 < 2 ^ 64 - 1) :
    ∃ res, Rec.parseTokenizing E f lexer input = pure res ∧
      ∀ e, res = .error e →
        (e = .finish ∧ (input = [] ∨ ∃ toks, Reading lexer input toks ∧ Begins U w.innerRoot toks)) ∨
        ∃ i ch, input[i]? = some ch ∧ e = .parse (lexer ch) i ∧
          (i = 0 ∨ ∃ toks, Reading lexer (input.take i) toks ∧ Begins U w.innerRoot toks) ∧
          ¬ ∃ toks, Reading lexer (input.take (i + 1)) toks ∧ Begins U w.innerRoot toks := by
  obtain ⟨c', n, w', int, hB, hi, hterm, hd⟩ := viable_setup h.crate h.ok h.acyclic h.made h.wrap
  have ht' := fun ch hc => (ht ch hc).terminal h.bin
  obtain ⟨res, h1, _, _, h4⟩ := C32_tokenizing hB hleo (hF _ _) (lexer := lexer) (lex := fun ch => (lexer ch).map int)
    (fun ch hc => internals_map fun t h => hi t (ht' ch hc t h).1)
    (by
      intro ch hc x hx
      obtain ⟨t, h, rfl⟩ := List.mem_map.1 hx
      exact hterm t (ht' ch hc t h).1 (ht' ch hc t h).2) hch hlen
  have hall : ∀ k toks, Reading lexer (input.take k) toks → Tokens U c toks := by
    intro k toks hr t htm
    obtain ⟨j, hk⟩ := List.mem_iff_getElem?.1 htm
    have hk' := (List.getElem?_eq_some_iff.1 hk).1
    have hl := hr.length_eq
    have := (List.forall₂_iff_get.1 hr).2 j (by omega) hk'
    simp only [List.get_eq_getElem] at this
    rw [(List.getElem?_eq_some_iff.1 hk).2] at this
    exact ht _ (List.mem_of_mem_take (List.getElem_mem _)) t this
  have hfw : ∀ k, CanContinue c' w' (tokenizingSteps w' (fun ch => (lexer ch).map int) (input.take k)) →
      input.take k = [] ∨ ∃ toks, Reading lexer (input.take k) toks ∧ Begins U w.innerRoot toks := by
    rintro k ⟨u, hu, hp, hv⟩
    obtain ⟨toks, rfl, hr⟩ := picks_reading (by simpa [tokenizingSteps] using hu) hp
    have hT := hall k toks hr
    by_cases hnil : input.take k = []
    · exact .inl hnil
    · refine .inr ⟨toks, hr, yields_of_viable h.toParserOf htrim hT ?_ ((hd toks fun t h' => (hT.terminal h.bin t h').1).1 hv)⟩
      intro e
      subst e
      exact hnil (List.length_eq_zero_iff.1 (by simpa using hr.length_eq))
  have hbw : ∀ k toks, Reading lexer (input.take k) toks → Begins U w.innerRoot toks →
      CanContinue c' w' (tokenizingSteps w' (fun ch => (lexer ch).map int) (input.take k)) := by
    rintro k toks hr ⟨more, hy⟩
    have hT := hall k toks hr
    refine ⟨_, ?_, reading_picks hr, (hd toks fun t h' => (hT.terminal h.bin t h').1).2 (viable_of_yields h.toParserOf hy)⟩
    have := hr.length_eq
    simp only [List.length_take] at this
    simp [tokenizingSteps, this]
  refine ⟨res, h1, fun e he => ?_⟩
  rcases h4 e he with ⟨h5, h6⟩ | ⟨_, h6⟩ | ⟨i, ch, h5, h6, h7, h8⟩
  · refine .inl ⟨h5, ?_⟩
    have := hfw input.length
    rw [List.take_length] at this
    exact this h6
  · refine absurd ⟨[w'.sof], by simp [tokenizingSteps], ?_, ?_⟩ h6
    · exact ⟨⟨0, by simp [inputOf, tokenizingSteps]⟩, trivial⟩
    · have := (hd [] (fun t h => by cases h)).2 (viable_sof h.wrap)
      simpa using this
  · refine .inr ⟨i, ch, h5, h6, ?_, ?_⟩
    · rw [reading_take] at h7
      rcases hfw i h7 with hnil | hb
      · have h9 := congrArg List.length hnil
        rw [List.length_take, List.length_nil] at h9
        have := getElem?_lt h5
        exact .inl (by omega)
      · exact .inr hb
    · rintro ⟨toks, hr, hb⟩
      rw [reading_take] at h8
      exact h8 (hbw _ toks hr hb)

/-- C04 for every grammar without cycles whose symbols yield strings that are not empty: there is a parser, and this is what it reports. -/
theorem C04_every_grammar {root : Nat} (hroot : ∃ r ∈ U, r.1 = root) (ha : UAcyclic U) (hlive : ∀ r ∈ U, ∀ s ∈ r.2, Live U s) :
    ∃ (N : Names U) (w : WrappedRoot) (g0 : Nat) (c nulling : Cfg) (g : DefaultGrammar), w.innerRoot = root ∧
      UserParser plainCrate U N w g0 c nulling g ∧
      ∀ {σ ν : Type} {E : Env σ ν} {f : σ}, E.g = g → E.leo = false → (∀ dots syms, SafeStart E.F f dots syms) →
        ∀ toks : List Nat, (∀ t ∈ toks, UTerminal U t ∧ ∃ r ∈ U, t ∈ r.2) → toks.length + 1 < 2 ^ 64 - 1 →
          ∃ s0 s res, Rec.new E f = pure s0 ∧ Rec.parse E s0 toks = pure (s, res) ∧
            ((∃ b, res = .ok b) ↔ toks = [] ∨ Begins U root toks) ∧
            ∀ e, res = .error e → ∃ i t, toks[i]? = some t ∧ e = .parse [t] i ∧ (i = 0 ∨ Begins U root (toks.take i)) ∧
              ¬ Begins U root (toks.take (i + 2)) ∧ (E.lookahead = false → ¬ Begins U root (toks.take (i + 1))) := by
  obtain ⟨N, w, g0, c, nulling, g, rfl, h1, _, h3, _⟩ := C55_every_grammar hroot ha
  refine ⟨N, w, g0, c, nulling, g, rfl, h1, ?_⟩
  intro σ ν E f hg hleo hF toks ht hlen
  subst hg
  exact C04_user h1 (Trimmed.of_live hlive) hleo hF ((h3 toks).2 ht) hlen

/-- C04 for the calculator: the position in an error is the end of what can be completed to an arithmetic expression, or one before. -/
theorem C04_calculator {X : CfgCrate} {E : Env σ ν} {f : σ} (hX : CrateOK X) (hg : fromBinarized X calcCfg Example.noRules = pure E.g)
    (hleo : E.leo = false) (hF : ∀ dots syms, SafeStart E.F f dots syms) {toks : List Nat} (ht : ∀ t ∈ toks, 4 ≤ t ∧ t < 20)
    (hlen : toks.length + 1 < 2 ^ 64 - 1) :
    ∃ s0 s res, Rec.new E f = pure s0 ∧ Rec.parse E s0 toks = pure (s, res) ∧
      ((∃ b, res = .ok b) ↔ toks = [] ∨ Begins grammar 0 toks) ∧
      ∀ e, res = .error e → ∃ i t, toks[i]? = some t ∧ e = .parse [t] i ∧ (i = 0 ∨ Begins grammar 0 (toks.take i)) ∧
        ¬ Begins grammar 0 (toks.take (i + 2)) ∧ (E.lookahead = false → ¬ Begins grammar 0 (toks.take (i + 1))) := by
  obtain ⟨g, h1, h2⟩ := calc_parser hX
  have h3 := h1.made
  rw [hg] at h3
  cases pure_inj_M h3
  exact C04_user h1 (Trimmed.of_noEmpty calc_noEmpty calc_productive) hleo hF (calc_tokens ht) hlen

/-! ### Examples -/

mutual
theorem calc_head {s : Nat} {u : List Nat} (h : Yields grammar s u) (hs : s ≠ 9) : ∃ a v, u = a :: v ∧ a ≠ 9 :=
  match h with
  | .token _ => ⟨_, _, rfl, hs⟩
  | .rule (rhs := rhs) hk hy => by
    have hg : ∀ r ∈ grammar, r.2 ≠ [] ∧ r.2.head? ≠ some 9 := by decide +kernel
    obtain ⟨h1, h2⟩ := hg _ (List.mem_of_getElem? hk)
    exact calc_heads hy h1 h2
theorem calc_heads {ss u : List Nat} (h : YieldsAll grammar ss u) (h1 : ss ≠ []) (h2 : ss.head? ≠ some 9) : ∃ a v, u = a :: v ∧ a ≠ 9 :=
  match h with
  | .nil => absurd rfl h1
  | .cons hy _ => by
    obtain ⟨a, v, rfl, ha⟩ := calc_head hy (by simpa using h2)
    exact ⟨a, _, rfl, ha⟩
end

-- no arithmetic expression begins with a closing parenthesis
theorem calc_no_paren : ¬ Begins grammar 0 [9] := by
  rintro ⟨more, h⟩
  obtain ⟨a, v, e, ha⟩ := calc_head h (by decide)
  simp only [List.cons_append, List.nil_append, List.cons.injEq] at e
  exact ha e.1.symm

-- `(1` begins an expression
theorem calc_paren_one : Begins grammar 0 [8, 11] := by
  have ht : ∀ s, 4 ≤ s → Yields grammar s [s] := fun s hs => .token (by
    have : ∀ r ∈ grammar, r.1 < 4 := by decide +kernel
    intro r hr e
    have := this r hr
    omega)
  have h3 : Yields grammar 3 [11] := .rule (k := 11) (rhs := [11]) (by decide +kernel) (.cons (ht 11 (by decide)) .nil)
  have h2 : Yields grammar 2 [11] := .rule (k := 7) (rhs := [3]) (by decide +kernel) (.cons h3 .nil)
  have up : ∀ u, Yields grammar 2 u → Yields grammar 0 u := by
    intro u h
    have h1 : Yields grammar 1 u := .rule (k := 5) (rhs := [2]) (by decide +kernel) (by simpa using YieldsAll.cons h .nil)
    exact .rule (k := 2) (rhs := [1]) (by decide +kernel) (by simpa using YieldsAll.cons h1 .nil)
  exact ⟨[9], up _ (.rule (k := 6) (rhs := [8, 0, 9]) (by decide +kernel) (.cons (u := [8]) (v := [11, 9]) (ht 8 (by decide))
    (.cons (u := [11]) (v := [9]) (up _ h2) (.cons (u := [9]) (v := []) (ht 9 (by decide)) .nil))))⟩

theorem calc_paren : Begins grammar 0 [8] := by
  obtain ⟨more, h⟩ := calc_paren_one
  exact ⟨11 :: more, h⟩

-- parsers of arithmetic expressions exist; they report position 0 for `)` and no error for `(1`
example : ∃ (E : Env Compact.Bocage Nat) (b : Compact.Bocage), fromBinarized textbookCrate calcCfg Example.noRules = pure E.g ∧
    (∃ s, (Rec.new E b >>= fun s => Rec.parse E s [9]) = pure (s, .error (.parse [9] 0))) ∧
    ∃ s k, (Rec.new E b >>= fun s => Rec.parse E s [8, 11]) = pure (s, .ok k) := by
  obtain ⟨g, h1, h2⟩ := calc_parser textbookCrate_ok
  obtain ⟨-, b, hb⟩ := C36_made textbookCrate_ok calc_ok h1.made (by decide) (by decide)
  have key := fun toks ht hlen => C04_calculator (E := { g := g, F := Compact.forest, leo := false, sorter := Example.sorter }) (f := b) (toks := toks)
    textbookCrate_ok h1.made rfl (fun dots syms => (C02_forests dots syms).2.2 b) ht hlen
  refine ⟨{ g := g, F := Compact.forest, leo := false, sorter := Example.sorter }, b, h1.made, ?_, ?_⟩
  · obtain ⟨s0, s, res, h3, h4, h5, h6⟩ := key [9] (by decide) (by decide)
    refine ⟨s, ?_⟩
    rw [h3, pure_bind, h4]
    cases res with
    | ok k => exact absurd (h5.1 ⟨k, rfl⟩) (by simpa using calc_no_paren)
    | error e =>
      obtain ⟨i, t, h7, rfl, _⟩ := h6 e rfl
      have hi := getElem?_lt h7
      have : i = 0 := by simpa using hi
      subst this
      cases h7
      rfl
  · obtain ⟨s0, s, res, h3, h4, h5, h6⟩ := key [8, 11] (by decide) (by decide)
    obtain ⟨k, rfl⟩ := h5.2 (.inr calc_paren_one)
    exact ⟨s, k, by rw [h3, pure_bind, h4]⟩

-- with a lexer that reads every character as itself or as a digit, `parse_tokenizing` reports position 1 for `(` followed by a
-- character for which there is no token
example : ∃ (E : Env Compact.Bocage Nat) (b : Compact.Bocage), fromBinarized textbookCrate calcCfg Example.noRules = pure E.g ∧
    Rec.parseTokenizing E b (fun ch => if ch = 0 then [] else [ch, 11]) [8, 0] = pure (.error (.parse [] 1)) := by
  obtain ⟨g, h1, h2⟩ := calc_parser textbookCrate_ok
  obtain ⟨-, b, hb⟩ := C36_made textbookCrate_ok calc_ok h1.made (by decide) (by decide)
  refine ⟨{ g := g, F := Compact.forest, leo := false, sorter := Example.sorter }, b, h1.made, ?_⟩
  have ht : ∀ ch ∈ [8, 0], Tokens grammar calcCfg (if ch = 0 then [] else [ch, 11]) := by
    intro ch hch
    apply calc_tokens
    revert ch
    decide
  have hr : ∀ toks, Reading (fun ch => if ch = 0 then [] else [ch, 11]) [8, 0] toks → False := by
    intro toks h
    obtain _ | ⟨_, h⟩ := h
    obtain _ | ⟨h, _⟩ := h
    simp at h
  obtain ⟨res, h3, h4, h5⟩ := C32_tokenizing_user (E := { g := g, F := Compact.forest, leo := false, sorter := Example.sorter }) (f := b) h1 rfl
    (fun dots syms => (C02_forests dots syms).2.2 b) ht (by decide) (by decide)
  obtain ⟨res', h3', h6⟩ := C32_tokenizing_position (E := { g := g, F := Compact.forest, leo := false, sorter := Example.sorter }) (f := b) h1
    (Trimmed.of_noEmpty calc_noEmpty calc_productive) rfl (fun dots syms => (C02_forests dots syms).2.2 b) ht (by decide) (by decide)
  rw [h3] at h3'
  cases pure_inj_M h3'
  rw [h3]
  cases res with
  | ok k =>
    cases k with
    | false => exact absurd rfl h5
    | true =>
      obtain ⟨toks, h, _⟩ := h4.1 rfl
      exact (hr toks h).elim
  | error e =>
    rcases h6 e rfl with ⟨_, h | ⟨toks, h, _⟩⟩ | ⟨i, ch, h7, rfl, h8, h9⟩
    · cases h
    · exact (hr toks h).elim
    · match i, h7 with
      | 0, _ => exact absurd ⟨[8], .cons (by decide) .nil, calc_paren⟩ h9
      | 1, h7 => cases h7; rfl
      | i + 2, h7 => simp at h7

end Gearley.Props
