import Verif.Proofs.UserCycle
import Verif.Props.CyclicParse
import Verif.Props.User

/-!
# C63: `parse` with grammars of the user that have cycles

C55 assumes that no symbol of the user's grammar derives itself. Here grammars are considered for which this may happen.
-/

namespace Gearley.Props
open Gearley Gearley.Spec Build Relation
variable {U : URules} {N : Names U} {w : WrappedRoot} {g0 : Nat} {c nulling : Cfg} {X : CfgCrate} {σ ν : Type}

theorem InNumbers.inputOK {g : DefaultGrammar} {toks ext : List Nat} {c' : Cfg} {n : Nat} (h : InNumbers U N w g0 c g toks ext c' n) (ht : Tokens U c toks) :
    InputOK (URules.rename (intNum ext) U) (N.rename (ext_int ext)) (inputOf (parseSteps (renRoot (intNum ext) w).sof (toks.map (intNum ext)))) := by
  intro i p hp
  cases i with
  | zero =>
    simp only [inputOf, parseSteps, List.getElem?_cons_zero, List.mem_singleton] at hp
    subst hp
    have hf := h.bin.fresh (intNum ext w.sof) (.inr (.inr (.inl rfl)))
    exact ⟨fun r hr => (hf.2 r hr).1, hf.1⟩
  | succ i =>
    rw [parseSteps_tok] at hp
    obtain ⟨⟨t, v⟩, h1, rfl⟩ := List.mem_map.1 hp
    have h2 := inputOK_tok (ht.user N) i _ h1
    refine ⟨(UTerminal.iff (ext_int ext)).2 h2.1, ?_⟩
    show N.parts (extNum ext (intNum ext t)) = none
    rw [ext_int]
    exact h2.2

/-- Infinitely many trees of the user's grammar make infinitely many trees in the parser's numbers. -/
theorem InNumbers.infinite {g : DefaultGrammar} {toks ext : List Nat} {c' : Cfg} {n : Nat} (h : InNumbers U N w g0 c g toks ext c' n) (ht : Tokens U c toks)
    {A i j : Nat} (hinf : {u | UTreeOf U (tokInput toks) u A i j}.Infinite) (hij : i < j) :
    {t | TreeOf (rulesOf c') (inputOf (parseSteps (renRoot (intNum ext) w).sof (toks.map (intNum ext)))) t (intNum ext A) (i + 1) (j + 1)}.Infinite := by
  intro hfin
  refine hinf ((hfin.image fun t => ((flat (N.rename (ext_int ext)) (infoOf c') t).headD (.empty 0)).rename (extNum ext)).subset fun u hu => ?_)
  have h1 := UTreeOf.rename (f := intNum ext) (inp' := inputOf (parseSteps (renRoot (intNum ext) w).sof (toks.map (intNum ext)))) (by
    intro i a v hm
    rw [parseSteps_tok]
    exact List.mem_map_of_mem (f := fun p => (intNum ext p.1, p.2)) hm) hu
  obtain ⟨t, h2, h3⟩ := h.bin.complete_tree (info := infoOf c') rfl rfl (h.inputOK ht) h1 (by omega)
  refine ⟨t, h2, ?_⟩
  simp only [h3, List.headD_cons]
  exact UTree.rename_back (ext_int ext) u

/-- A symbol on a cycle is completed only if a symbol of the user's grammar that derives itself derives a part of the input. -/
theorem InNumbers.cycle {g : DefaultGrammar} {toks ext : List Nat} {c' : Cfg} {n : Nat} (h : InNumbers U N w g0 c g toks ext c' n) (ht : Tokens U c toks)
    (hc : CycleCompletes c' (renRoot (intNum ext) w) (parseSteps (renRoot (intNum ext) w).sof (toks.map (intNum ext)))) :
    ∃ B x, UCyclic U B ∧ x ≠ [] ∧ x <:+: toks ∧ Yields U B x := by
  obtain ⟨k, A, hk, ⟨a, t, _, hta⟩, hA⟩ := hc
  obtain ⟨B', hB1, hB2, hB3, hB4⟩ := h.bin.cycle h.wrap h.rule hA
  obtain ⟨t', ht', _⟩ := UnaryStep.tree hB3 hta
  have hin := h.inputOK ht
  obtain ⟨hak, u, _, hu⟩ := (h.bin.flat_sound (info := infoOf c') rfl rfl (fun i p hp => (hin i p hp).2) t' ht' hB1).user hB2
  obtain ⟨hB5, r, hr, rfl⟩ := hB4.reflect (ext_int ext)
  rw [ext_int] at hB5
  -- the tree does not begin with the start marker
  have ha : a ≠ 0 := by
    rintro rfl
    obtain ⟨s, v, h1, h2⟩ := hu.first hak
    simp only [inputOf, parseSteps, List.getElem?_cons_zero, List.mem_singleton, Prod.mk.injEq] at h1
    obtain ⟨rfl, _⟩ := h1
    have hf := h.bin.fresh (renRoot (intNum ext) w).sof (.inr (.inr (.inl rfl)))
    rcases h2 with h2 | ⟨r', hr', h2⟩
    · exact (hf.2 _ (List.mem_map_of_mem (f := fun r : Nat × List Nat => (intNum ext r.1, r.2.map (intNum ext))) hr)).1 h2.symm
    · exact (hf.2 r' hr').2 h2
  obtain ⟨i, rfl⟩ : ∃ i, a = i + 1 := ⟨a - 1, by omega⟩
  obtain ⟨u0, j, _, rfl, h3⟩ := hu.reflect (ext_int ext) (inp := tokInput toks) (by
    intro i a' v hm
    rw [parseSteps_tok] at hm
    obtain ⟨⟨a, v'⟩, h4, h5⟩ := List.mem_map.1 hm
    simp only [Prod.mk.injEq] at h5
    obtain ⟨rfl, rfl⟩ := h5
    exact ⟨a, rfl, h4⟩) r.1 i rfl rfl
  obtain ⟨x, h4, h5⟩ := h3.yields (inputOK_tok (ht.user N))
  refine ⟨r.1, x, hB5, ?_, ?_, h4⟩
  · rintro rfl
    have := h5.length
    simp at this
    omega
  · exact (reads_tokInput h5).isInfix.trans (List.drop_suffix _ _).isInfix

/-- C63. Whatever cycles the user's grammar has, `parse` does not panic on a string of its tokens. If it returns, it returns
`Ok(true)` exactly if the string can be derived from the root. -/
theorem C63_user_verdict {E : Env σ ν} {f : σ} (h : ParserOf X U N w g0 c nulling E.g) (hleo : E.leo = false)
    (hF : ∀ dots syms, SafeStart E.F f dots syms) {toks : List Nat} (ht : Tokens U c toks) (hlen : toks.length + 1 < 2 ^ 64 - 1) :
    ∃ s0, Rec.new E f = pure s0 ∧ (∀ p, Rec.parse E s0 toks ≠ panicM p) ∧
      ∀ s res, Rec.parse E s0 toks = pure (s, res) → (res = .ok true ↔ Yields U w.innerRoot toks) := by
  obtain ⟨c', n, w', int, hB, _, hi, hterm, hd⟩ := parser_setup0 h.crate h.ok h.made h.wrap
  have ht' := ht.terminal h.bin
  obtain ⟨s0, h1, h2, h3⟩ := C63_verdict hB hleo (hF _ _) (internals_map fun t h => hi t (ht' t h).1)
    (by
      intro t' ht''
      obtain ⟨t, h, rfl⟩ := List.mem_map.1 ht''
      exact hterm t (ht' t h).1 (ht' t h).2) (by simpa using hlen)
  exact ⟨s0, h1, h2, fun s res hr => ((h3 s res hr).trans (hd toks fun t h => (ht' t h).1)).trans (h.language ht)⟩

/-- C63. `parse` does not return on a string that has infinitely many derivation trees in the user's grammar. -/
theorem C63_user_infinite {E : Env σ ν} {f : σ} (h : ParserOf X U N w g0 c nulling E.g) (hk : EmptyKept U N c nulling E.g) (hleo : E.leo = false)
    (hF : ∀ dots syms, SafeStart E.F f dots syms) {toks : List Nat} (ht : Tokens U c toks) (hlen : toks.length + 1 < 2 ^ 64 - 1)
    (hinf : {u | UTreeOf U (tokInput toks) u w.innerRoot 0 toks.length}.Infinite) :
    ∃ s0, Rec.new E f = pure s0 ∧ Rec.parse E s0 toks = diverge := by
  obtain ⟨ext, c', n, hN⟩ := h.numbered hk ht
  have hpos : 0 < toks.length := by
    rcases Nat.eq_zero_or_pos toks.length with h0 | h0
    · rw [h0] at hinf
      exact absurd ((Set.finite_singleton (UTree.empty w.innerRoot)).subset fun u hu => (UTreeOf.eq_empty hu rfl).1) hinf
    · exact h0
  obtain ⟨g1, ⟨h1, h2⟩, h3, _⟩ := hN.wrap.rules
  refine C63_infinite hN.prepared hleo (hF _ _) hN.internals hN.terminals (by simpa using hlen) ?_ ?_
  · exact .binary (r := ⟨_, g1, some _⟩) (u := [_, _]) h1 rfl (.binary (r := ⟨g1, _, some _⟩) (u := [_]) h3 rfl (.refl _) (.refl _)) (.refl _)
  · have := hN.infinite ht hinf hpos
    rw [List.length_map]
    exact this

/-- C63. `parse` returns, with the right verdict, on a string of tokens if no symbol that derives itself derives a non-empty part
of the string. -/
theorem C63_user_returns {E : Env σ ν} {f : σ} (h : ParserOf X U N w g0 c nulling E.g) (hk : EmptyKept U N c nulling E.g) (hleo : E.leo = false)
    (hF : ∀ dots syms, SafeStart E.F f dots syms) {toks : List Nat} (ht : Tokens U c toks) (hlen : toks.length + 1 < 2 ^ 64 - 1)
    (hno : ∀ B x, UCyclic U B → x ≠ [] → x <:+: toks → ¬ Yields U B x) :
    ∃ s0 s res, Rec.new E f = pure s0 ∧ Rec.parse E s0 toks = pure (s, res) ∧ (res = .ok true ↔ Yields U w.innerRoot toks) := by
  obtain ⟨ext, c', n, hN⟩ := h.numbered hk ht
  obtain ⟨s0, s, res, h1, h2, _⟩ := C63_returns hN.prepared hleo (hF _ _) hN.internals hN.terminals (by simpa using hlen) (fun hc => by
    obtain ⟨B, x, h1, h2, h3, h4⟩ := hN.cycle ht hc
    exact hno B x h1 h2 h3 h4)
  obtain ⟨s0', h3, _, h4⟩ := C63_user_verdict h hleo hF ht hlen
  rw [h1] at h3
  cases pure_inj_M h3
  exact ⟨s0, s, res, h1, h2, h4 s res h2⟩

/-- A tree of the user's grammar in which a symbol `B` stands for itself gives a sentential form of the parser's grammar. -/
theorem InNumbers.form {g : DefaultGrammar} {toks ext : List Nat} {c' : Cfg} {n : Nat} (h : InNumbers U N w g0 c g toks ext c' n) {form : List Nat}
    (hne : form ≠ []) (hlive : ∀ s ∈ form, Live U s) {t : UTree} (ht : UTreeOf U (tokInput form) t w.innerRoot 0 form.length) :
    Derives (rulesOf c') (renRoot (intNum ext) w).root (intNum ext w.sof :: form.map (intNum ext) ++ [intNum ext w.eof]) := by
  have h1 := UTreeOf.rename (f := intNum ext) (inp' := inputOf (parseSteps (intNum ext w.sof) (form.map (intNum ext)))) (by
    intro i a v hm
    rw [parseSteps_tok]
    exact List.mem_map_of_mem (f := fun p => (intNum ext p.1, p.2)) hm) ht
  have hpos : 0 < form.length := List.length_pos_iff.2 hne
  have hin : LiveInput (URules.rename (intNum ext) U) (inputOf (parseSteps (intNum ext w.sof) (form.map (intNum ext)))) := by
    intro i p hp
    cases i with
    | zero =>
      simp only [inputOf, parseSteps, List.getElem?_cons_zero, List.mem_singleton] at hp
      subst hp
      have hf := h.bin.fresh (intNum ext w.sof) (.inr (.inr (.inl rfl)))
      exact ⟨_, [], .token fun r hr => (hf.2 r hr).1⟩
    | succ i =>
      rw [parseSteps_tok] at hp
      obtain ⟨⟨t, v⟩, h1, rfl⟩ := List.mem_map.1 hp
      unfold tokInput at h1
      split at h1
      · next s hs =>
        simp only [List.mem_singleton, Prod.mk.injEq] at h1
        rw [h1.1]
        exact (hlive s (List.mem_of_getElem? hs)).rename (ext_int ext)
      · simp at h1
  obtain ⟨b, h2, _⟩ := h.bin.complete_live (info := infoOf c') rfl rfl hin h1 (by omega)
  obtain ⟨u, h3, h4, h5⟩ := h2.derives
  have hu : u = form.map (intNum ext) := by
    have := (parseSteps_input (sof := intNum ext w.sof) (u := form.map (intNum ext)) (form.length + 1) (v := intNum ext w.sof :: u) (by
      rw [List.length_take, parseSteps_length]; simp; omega)).1 (by
        rw [List.take_of_length_le (by rw [parseSteps_length]; simp)]
        refine ⟨⟨0, ?_⟩, h4⟩
        simp [inputOf, parseSteps])
    rw [List.take_of_length_le (by simp)] at this
    exact (List.cons.inj this).2
  rw [hu] at h3
  obtain ⟨g1, ⟨h6, _⟩, h7, _⟩ := h.wrap.rules
  exact .binary (r := ⟨_, g1, some _⟩) h6 rfl (.binary (r := ⟨g1, _, some _⟩) (u := [_]) h7 rfl (.refl _) h3) (.refl _)

/-- C63. `parse` does not return if a symbol `B` that derives itself derives a non-empty part `y` of the string, and a tree of
the root begins with the tokens before the part, then the symbol `B` itself, and goes on with the token after the part, if
there is one. What comes then need not be what follows in the string. Without lookahead the token need not be the same. -/
theorem C63_user_diverges {E : Env σ ν} {f : σ} (h : ParserOf X U N w g0 c nulling E.g) (hk : EmptyKept U N c nulling E.g) (hleo : E.leo = false)
    (hF : ∀ dots syms, SafeStart E.F f dots syms) {p y q v : List Nat} (ht : Tokens U c (p ++ y ++ q)) (hlen : (p ++ y ++ q).length + 1 < 2 ^ 64 - 1)
    {B : Nat} (hcyc : UCyclic U B) (hy : y ≠ []) (hB : Yields U B y) (hv : ∀ s ∈ v, Live U s) {t : UTree}
    (hform : UTreeOf U (tokInput (p ++ B :: v)) t w.innerRoot 0 (p ++ B :: v).length)
    (hnext : E.lookahead = true → q ≠ [] → v.head? = q.head?) :
    ∃ s0, Rec.new E f = pure s0 ∧ Rec.parse E s0 (p ++ y ++ q) = diverge := by
  obtain ⟨ext, c', n, hN⟩ := h.numbered hk ht
  have hypos : 0 < y.length := List.length_pos_iff.2 hy
  have hlive : ∀ s ∈ p ++ B :: v, Live U s := by
    intro s hs
    rcases List.mem_append.1 hs with h1 | h1
    · exact ⟨s, [], .token (ht s (by simp [h1])).1⟩
    · rcases List.mem_cons.1 h1 with rfl | h1
      · cases y with
        | nil => exact absurd rfl hy
        | cons a y => exact ⟨a, y, hB⟩
      · exact hv s h1
  have hd := hN.form (by simp) hlive hform
  have hr : Reads (tokInput (p ++ y ++ q)) p.length (p.length + y.length) y := by
    have h1 := reads_all (toks := p ++ y ++ q) (i := p.length) (l := y ++ q) (by simp)
    obtain ⟨k, h2, _⟩ := h1.split
    have := h2.length
    rw [← this] at h2
    exact h2
  obtain ⟨tB, htB⟩ := hB.tree _ _ hr
  have hinf := hN.infinite ht (hcyc.infinite htB (by omega)) (by omega)
  refine C63_diverges hN.prepared hleo (hF _ _) hN.internals hN.terminals (by simpa using hlen) (A := intNum ext B) (a := p.length + 1)
    (m := p.length + y.length + 1) (v := v.map (intNum ext) ++ [intNum ext w.eof]) (by omega) (by simp) ?_ hinf ?_
  · convert hd using 1
    simp [renRoot]
  · intro hla _ hm
    have hq : q ≠ [] := by
      rintro rfl
      simp at hm
    have := hnext hla hq
    obtain ⟨b, q, rfl⟩ := List.exists_cons_of_ne_nil hq
    obtain ⟨b', v, rfl⟩ : ∃ b' v', v = b' :: v' := by
      cases v with
      | nil => cases this
      | cons b' v => exact ⟨b', v, rfl⟩
    cases this
    simp [List.getElem?_append, renRoot]

open Classical in
/-- The assumption of C55 says that no symbol derives itself. -/
theorem uacyclic_iff : UAcyclic U ↔ ∀ A, ¬ UCyclic U A := by
  constructor
  · rintro ⟨rank, hr⟩ A hA
    have : ∀ {B C}, TransGen (UStep U) B C → rank C < rank B := by
      intro B C h
      induction h with
      | single h =>
        obtain ⟨k, rhs, j, h1, h2, h3⟩ := h
        exact hr k _ rhs j _ h1 h2 h3
      | tail _ h ih =>
        obtain ⟨k, rhs, j, h1, h2, h3⟩ := h
        exact Nat.lt_trans (hr k _ rhs j _ h1 h2 h3) ih
    exact Nat.lt_irrefl _ (this hA)
  · intro hno
    refine ⟨fun X => ((U.map (·.1)).toFinset.filter fun Y => TransGen (UStep U) X Y).card, ?_⟩
    intro k A rhs j y hk hy hn
    have hstep : UStep U y A := ⟨k, rhs, j, hk, hy, hn⟩
    refine Finset.card_lt_card ⟨?_, ?_⟩
    · intro Y hY
      simp only [Finset.mem_filter] at hY ⊢
      exact ⟨hY.1, .head hstep hY.2⟩
    · intro hsub
      have hA : A ∈ (U.map (·.1)).toFinset.filter fun Y => TransGen (UStep U) y Y := by
        simp only [Finset.mem_filter, List.mem_toFinset, List.mem_map]
        exact ⟨⟨_, List.mem_of_getElem? hk, rfl⟩, .single hstep⟩
      have := hsub hA
      simp only [Finset.mem_filter] at this
      exact hno A this.2

/-- C63. For every grammar, with whatever cycles, and every symbol with rules as its root there is a parser that satisfies the
assumptions above. It does not panic on strings of tokens, its verdicts are right, it returns on strings of which no symbol that
derives itself derives a non-empty part, and it does not return on strings with infinitely many trees. -/
theorem C63_every_grammar {root : Nat} (hroot : ∃ r ∈ U, r.1 = root) :
    ∃ (N : Names U) (w : WrappedRoot) (g0 : Nat) (c nulling : Cfg) (g : DefaultGrammar), w.innerRoot = root ∧
      ParserOf plainCrate U N w g0 c nulling g ∧ EmptyKept U N c nulling g ∧
      (∀ toks, Tokens U c toks ↔ ∀ t ∈ toks, UTerminal U t ∧ ∃ r ∈ U, t ∈ r.2) ∧
      ∀ {σ ν : Type} {E : Env σ ν} {f : σ}, E.g = g → E.leo = false → (∀ dots syms, SafeStart E.F f dots syms) →
        ∀ toks : List Nat, (∀ t ∈ toks, UTerminal U t ∧ ∃ r ∈ U, t ∈ r.2) → toks.length + 1 < 2 ^ 64 - 1 →
          ∃ s0, Rec.new E f = pure s0 ∧ (∀ p, Rec.parse E s0 toks ≠ panicM p) ∧
            (∀ s res, Rec.parse E s0 toks = pure (s, res) → (res = .ok true ↔ Yields U root toks)) ∧
            ((∀ B x, UCyclic U B → x ≠ [] → x <:+: toks → ¬ Yields U B x) → ∃ s res, Rec.parse E s0 toks = pure (s, res)) ∧
            ({u | UTreeOf U (tokInput toks) u root 0 toks.length}.Infinite → Rec.parse E s0 toks = diverge) := by
  obtain ⟨m, L, hm, hL⟩ := bounds_exist U
  obtain ⟨g, h1, h2, h3⟩ := parserOf_exists hm hL hroot
  have htok := tokens_standard (root := root) hm hL h3
  refine ⟨_, _, _, _, _, g, rfl, h1, h2, htok, ?_⟩
  intro σ ν E f hg hleo hF toks ht hlen
  subst hg
  have ht := (htok toks).2 ht
  obtain ⟨s0, h4, h5, h6⟩ := C63_user_verdict h1 hleo hF ht hlen
  refine ⟨s0, h4, h5, h6, fun hno => ?_, fun hinf => ?_⟩
  · obtain ⟨s0', s, res, h7, h8, _⟩ := C63_user_returns h1 h2 hleo hF ht hlen hno
    rw [h4] at h7
    cases pure_inj_M h7
    exact ⟨s, res, h8⟩
  · obtain ⟨s0', h7, h8⟩ := C63_user_infinite h1 h2 hleo hF ht hlen hinf
    rw [h4] at h7
    cases pure_inj_M h7
    exact h8

/-! ### Examples -/

/-- `S ::= A b c | a b d | d`, `A ::= A | a`: `S` is 0, `A` 1, `a` 2, `b` 3, `c` 4, `d` 5. -/
def loopRules : URules := [(0, [1, 3, 4]), (0, [2, 3, 5]), (0, [5]), (1, [1]), (1, [2])]

theorem loop_cyclic : UCyclic loopRules 1 := .single ⟨3, [1], 0, rfl, rfl, fun i s hi hs => by
  cases i with
  | zero => exact absurd rfl hi
  | succ i => cases hs⟩

/-- Only `A` derives itself. -/
theorem loop_cyclic_only {B : Nat} (h : UCyclic loopRules B) : B = 1 := by
  obtain ⟨X, k, rhs, j, h1, _⟩ : ∃ X, UStep loopRules X B := by
    cases h with
    | single h => exact ⟨_, h⟩
    | tail _ h => exact ⟨_, h⟩
  obtain ⟨Y, k', rhs', j', h2, h3, _⟩ : ∃ Y, UStep loopRules B Y := by
    obtain ⟨Y, hY, _⟩ := TransGen.head'_iff.1 h
    exact ⟨Y, hY⟩
  have h1 := List.mem_of_getElem? h1
  have h2 := List.mem_of_getElem? h2
  have h3 := List.mem_of_getElem? h3
  simp only [loopRules, List.mem_cons, List.not_mem_nil, or_false, Prod.mk.injEq] at h1 h2
  have : B = 0 ∨ B = 1 := by omega
  rcases this with rfl | rfl
  · rcases h2 with ⟨_, rfl⟩ | ⟨_, rfl⟩ | ⟨_, rfl⟩ | ⟨_, rfl⟩ | ⟨_, rfl⟩ <;> simp at h3
  · rfl

mutual
/-- `A` derives only `a`. -/
theorem loop_yields {s : Nat} {x : List Nat} (h : Yields loopRules s x) : s = 1 ∨ s = 2 → x = [2] :=
  match h with
  | .token ht => fun hs => by
    rcases hs with rfl | rfl
    · exact absurd rfl (ht (1, [1]) (by simp [loopRules]))
    · rfl
  | .rule hk hy => fun hs => by
    have hk := List.mem_of_getElem? hk
    simp only [loopRules, List.mem_cons, List.not_mem_nil, or_false, Prod.mk.injEq] at hk
    refine loop_yieldsAll hy ?_
    rcases hk with ⟨h, _⟩ | ⟨h, _⟩ | ⟨h, _⟩ | ⟨_, h⟩ | ⟨_, h⟩
    · omega
    · omega
    · omega
    · exact .inl h
    · exact .inr h
theorem loop_yieldsAll {ss x : List Nat} (h : YieldsAll loopRules ss x) : ss = [1] ∨ ss = [2] → x = [2] :=
  match h with
  | .nil => fun hs => by simp at hs
  | .cons (ss := ss) h1 h2 => fun hs => by
    simp only [List.cons.injEq] at hs
    have h3 := loop_yields h1 (hs.imp (·.1) (·.1))
    obtain rfl : ss = [] := hs.elim (·.2) (·.2)
    cases h2
    rw [h3, List.append_nil]
end

theorem loop_nullable {s : Nat} : ¬ UNullable loopRules s := by
  rintro h
  induction h with
  | rule hk _ ih =>
    have hk := List.mem_of_getElem? hk
    simp only [loopRules, List.mem_cons, List.not_mem_nil, or_false, Prod.mk.injEq] at hk
    rcases hk with ⟨_, rfl⟩ | ⟨_, rfl⟩ | ⟨_, rfl⟩ | ⟨_, rfl⟩ | ⟨_, rfl⟩ <;> exact ih _ List.mem_cons_self

theorem loop_leaf {toks : List Nat} {t : UTree} {s i j : Nat} (h : UTreeOf loopRules (tokInput toks) t s i j) (hs : 2 ≤ s) :
    toks[i]? = some s ∧ t = .leaf s (i % 2 ^ 32) ∧ j = i + 1 := by
  cases h with
  | leaf h =>
    unfold tokInput at h
    split at h
    · next x hx =>
      simp only [List.mem_singleton, Prod.mk.injEq] at h
      obtain ⟨rfl, rfl⟩ := h
      exact ⟨hx, rfl, rfl⟩
    · simp at h
  | empty h => exact absurd h loop_nullable
  | node hk _ _ =>
    have hk := List.mem_of_getElem? hk
    simp only [loopRules, List.mem_cons, List.not_mem_nil, or_false, Prod.mk.injEq] at hk
    omega

/-- The string `a b d` has exactly one tree. -/
theorem loop_one_tree (u : UTree) : UTreeOf loopRules (tokInput [2, 3, 5]) u 0 0 3 ↔ u = .node 1 [.leaf 2 0, .leaf 3 1, .leaf 5 2] := by
  constructor
  · intro h
    cases h with
    | @node k A i j rhs kids hk hkids hij =>
      match k, hk with
      | 0, hk' =>
        cases hk'
        cases hkids with | cons _ h => cases h with | cons _ h => cases h with | cons h1 h => cases h with | nil =>
        obtain ⟨h2, _, h3⟩ := loop_leaf h1 (by decide)
        obtain rfl := Nat.succ.inj h3
        cases h2
      | 1, hk' =>
        cases hk'
        cases hkids with | cons h1 h => cases h with | cons h2 h => cases h with | cons h3 h => cases h with | nil =>
        obtain ⟨_, rfl, rfl⟩ := loop_leaf h1 (by decide)
        obtain ⟨_, rfl, rfl⟩ := loop_leaf h2 (by decide)
        obtain ⟨_, rfl, _⟩ := loop_leaf h3 (by decide)
        rfl
      | 2, hk' =>
        cases hk'
        cases hkids with | cons h1 h => cases h with | nil =>
        obtain ⟨_, _, h3⟩ := loop_leaf h1 (by decide)
        cases h3
      | 3, hk' => cases hk'
      | 4, hk' => cases hk'
      | k + 5, hk' => simp [loopRules] at hk'
  · rintro rfl
    exact .node (k := 1) (rhs := [2, 3, 5]) rfl (.cons (.leaf (by simp [tokInput])) (.cons (.leaf (by simp [tokInput])) (.cons (.leaf (by simp [tokInput])) .nil))) (by decide)

/-- There is a parser for this grammar. On `a b d`, which has one tree, it does not return: after `a` the symbol `A` is
completed, since `b` can follow it. On `d` it returns `Ok(true)`. -/
example : ∃ (N : Names loopRules) (w : WrappedRoot) (g0 : Nat) (c nulling : Cfg) (g : DefaultGrammar),
    ParserOf plainCrate loopRules N w g0 c nulling g ∧
    ∀ {σ ν : Type} {E : Env σ ν} {f : σ}, E.g = g → E.leo = false → (∀ dots syms, SafeStart E.F f dots syms) →
      ∃ s0, Rec.new E f = pure s0 ∧ Rec.parse E s0 [2, 3, 5] = diverge ∧ ∃ s, Rec.parse E s0 [5] = pure (s, .ok true) := by
  obtain ⟨N, w, g0, c, nulling, g, hw, h1, h2, htok, h3⟩ := C63_every_grammar (U := loopRules) (root := 0) ⟨(0, [5]), by simp [loopRules], rfl⟩
  refine ⟨N, w, g0, c, nulling, g, h1, ?_⟩
  intro σ ν E f hg hleo hF
  subst hg
  obtain ⟨s0, h4, h5⟩ := C63_user_diverges h1 h2 hleo hF (p := []) (y := [2]) (q := [3, 5]) (v := [3, 4])
    ((htok _).2 (by unfold UTerminal; decide)) (by decide) loop_cyclic (by decide)
    (.rule (k := 4) (rhs := [2]) rfl (.cons (u := [2]) (.token (by unfold UTerminal; decide)) .nil))
    (by
      intro s hs
      exact ⟨s, [], .token (by revert s; unfold UTerminal; decide)⟩)
    (t := .node 0 [.leaf 1 0, .leaf 3 1, .leaf 4 2])
    (by
      rw [hw]
      exact .node (k := 0) (rhs := [1, 3, 4]) rfl (.cons (.leaf (by simp [tokInput])) (.cons (.leaf (by simp [tokInput])) (.cons (.leaf (by simp [tokInput])) .nil))) (by decide))
    (fun _ _ => rfl)
  obtain ⟨s0', h6, _, h7, h8, _⟩ := h3 rfl hleo hF [5] (by unfold UTerminal; decide) (by decide)
  rw [h4] at h6
  cases pure_inj_M h6
  refine ⟨s0, h4, h5, ?_⟩
  obtain ⟨s, res, h9⟩ := h8 (by
    intro B x hB _ hx hy
    obtain rfl := loop_cyclic_only hB
    obtain rfl := loop_yields hy (.inl rfl)
    revert hx
    decide)
  have : res = .ok true := (h7 s res h9).2 (.rule (k := 2) (rhs := [5]) rfl (.cons (u := [5]) (.token (by unfold UTerminal; decide)) .nil))
  exact ⟨s, this ▸ h9⟩

/-- `S ::= S | a` has infinitely many trees for `a`, so its parser does not return. -/
example : ∃ (N : Names [(0, [0]), (0, [1])]) (w : WrappedRoot) (g0 : Nat) (c nulling : Cfg) (g : DefaultGrammar),
    ParserOf plainCrate [(0, [0]), (0, [1])] N w g0 c nulling g ∧
    ∀ {σ ν : Type} {E : Env σ ν} {f : σ}, E.g = g → E.leo = false → (∀ dots syms, SafeStart E.F f dots syms) →
      ∃ s0, Rec.new E f = pure s0 ∧ Rec.parse E s0 [1] = diverge := by
  obtain ⟨N, w, g0, c, nulling, g, _, h1, _, _, h3⟩ := C63_every_grammar (U := [(0, [0]), (0, [1])]) (root := 0) ⟨(0, [0]), by simp, rfl⟩
  refine ⟨N, w, g0, c, nulling, g, h1, ?_⟩
  intro σ ν E f hg hleo hF
  obtain ⟨s0, h4, _, _, _, h5⟩ := h3 hg hleo hF [1] (by unfold UTerminal; decide) (by decide)
  refine ⟨s0, h4, h5 ?_⟩
  refine UCyclic.infinite (t := .node 1 [.leaf 1 0]) (.single ⟨0, [0], 0, rfl, rfl, ?_⟩) (.node (rhs := [1]) rfl (.cons (.leaf (by simp [tokInput])) .nil) (by decide)) (by decide)
  intro i s hi hs
  cases i with
  | zero => exact absurd rfl hi
  | succ i => cases hs

end Gearley.Props
