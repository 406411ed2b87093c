import Verif.Props.UserPosition
import Verif.Props.UserCycle

/-!
# C04: the reported positions for grammars with cycles

`C04_user_cyclic` needs no condition on the cycles of the user's grammar: it is about all calls of `parse` that return. Here: there is
such a parser for every grammar, and a grammar with a cycle for which an error is reported.
-/

namespace Gearley.Props
open Gearley.Spec Build
variable {U : URules}

/-- C04 for every grammar whose symbols yield strings that are not empty, with or without cycles: there is a parser, and this is what it
reports whenever it returns. -/
theorem C04_every_grammar_cyclic {root : Nat} (hroot : ∃ r ∈ U, r.1 = root) (hlive : ∀ r ∈ U, ∀ s ∈ r.2, Live U s) :
    ∃ (N : Names U) (w : WrappedRoot) (g0 : Nat) (c nulling : Cfg) (g : DefaultGrammar), w.innerRoot = root ∧
      ParserOf plainCrate U N w g0 c nulling g ∧
      ∀ {σ ν : Type} {E : Env σ ν} {f : σ}, E.g = g → E.leo = false → (∀ dots syms, SafeStart E.F f dots syms) →
        ∀ toks : List Nat, (∀ t ∈ toks, UTerminal U t ∧ ∃ r ∈ U, t ∈ r.2) → toks.length + 1 < 2 ^ 64 - 1 →
          ∃ s0, Rec.new E f = pure s0 ∧ (∀ p, Rec.parse E s0 toks ≠ panicM p) ∧
          ((∀ B x, UCyclic U B → x ≠ [] → x <:+: toks → ¬ Yields U B x) → ∃ s res, Rec.parse E s0 toks = pure (s, res)) ∧
          ∀ s res, Rec.parse E s0 toks = pure (s, res) →
            ((∃ b, res = .ok b) ↔ toks = [] ∨ Begins U root toks) ∧
            ∀ e, res = .error e → ∃ i t, toks[i]? = some t ∧ e = .parse [t] i ∧ (i = 0 ∨ Begins U root (toks.take i)) ∧
              ¬ Begins U root (toks.take (i + 2)) ∧ (E.lookahead = false → ¬ Begins U root (toks.take (i + 1))) := by
  obtain ⟨N, w, g0, c, nulling, g, rfl, h1, h2, h3, h4⟩ := C63_every_grammar hroot
  refine ⟨N, w, g0, c, nulling, g, rfl, h1, ?_⟩
  intro σ ν E f hg hleo hF toks ht hlen
  subst hg
  obtain ⟨s0, h5, h6, _, h7, _⟩ := h4 rfl hleo hF toks ht hlen
  exact ⟨s0, h5, h6, h7, fun s res h8 => C04_user_cyclic h1 (Trimmed.of_live hlive) hleo hF ((h3 toks).2 ht) hlen h5 h8⟩

-- no string of the language of `loopRules` begins with `5 5`
theorem loop_no_55 : ¬ Begins loopRules 0 [5, 5] := by
  rintro ⟨more, h⟩
  have first : ∀ {s u}, Yields loopRules s u → s = 1 ∨ s = 2 → u = [2] := fun h hs => loop_yields h hs
  cases h with
  | @rule _ k rhs _ hk hy =>
    have hm := List.mem_of_getElem? hk
    simp only [loopRules, List.mem_cons, Prod.mk.injEq, List.not_mem_nil, or_false] at hm
    rcases hm with ⟨_, rfl⟩ | ⟨_, rfl⟩ | ⟨_, rfl⟩ | ⟨h, _⟩ | ⟨h, _⟩
    · generalize hu : [5, 5] ++ more = u at hy
      cases hy with
      | cons h1 h2 => rw [first h1 (.inl rfl)] at hu; simp at hu
    · generalize hu : [5, 5] ++ more = u at hy
      cases hy with
      | cons h1 h2 => rw [first h1 (.inr rfl)] at hu; simp at hu
    · generalize hu : [5, 5] ++ more = u at hy
      cases hy with
      | cons h1 h2 =>
        cases h2
        cases h1 with
        | token => simp at hu
        | rule hk =>
          have := List.mem_of_getElem? hk
          simp [loopRules] at this
    · simp at h
    · simp at h

/-- The grammar `loopRules` has a cycle, and `parse` reports an error for `5 5`. -/
example : UCyclic loopRules 1 ∧ ∃ (N : Names loopRules) (w : WrappedRoot) (g0 : Nat) (c nulling : Cfg) (g : DefaultGrammar),
    ParserOf plainCrate loopRules N w g0 c nulling g ∧
    ∀ {σ ν : Type} {E : Env σ ν} {f : σ}, E.g = g → E.leo = false → (∀ dots syms, SafeStart E.F f dots syms) →
      ∃ s0 s i, Rec.new E f = pure s0 ∧ Rec.parse E s0 [5, 5] = pure (s, .error (.parse [5] i)) := by
  have hlive : ∀ r ∈ loopRules, ∀ s ∈ r.2, Live loopRules s := by
    have ht : ∀ s, 2 ≤ s → Yields loopRules s [s] := fun s hs => .token (by
      have : ∀ r ∈ loopRules, r.1 < 2 := by decide
      intro r hr e
      have := this r hr
      omega)
    have h1 : Yields loopRules 1 [2] := .rule (k := 4) (rhs := [2]) rfl (.cons (u := [2]) (ht 2 (by decide)) .nil)
    have hs : ∀ r ∈ loopRules, ∀ s ∈ r.2, s = 1 ∨ 2 ≤ s := by decide
    intro r hr s hsr
    rcases hs r hr s hsr with rfl | h
    · exact ⟨_, _, h1⟩
    · exact ⟨_, _, ht s h⟩
  obtain ⟨N, w, g0, c, nulling, g, _, h1, h2⟩ := C04_every_grammar_cyclic (U := loopRules) (root := 0)
    ⟨(0, [5]), by simp [loopRules], rfl⟩ hlive
  refine ⟨loop_cyclic, N, w, g0, c, nulling, g, h1, ?_⟩
  intro σ ν E f hg hleo hF
  obtain ⟨s0, h3, _, h4, h5⟩ := h2 hg hleo hF [5, 5] (by unfold UTerminal; decide) (by decide)
  obtain ⟨s, res, h6⟩ := h4 (by
    intro B x hB _ hx hy
    obtain rfl := loop_cyclic_only hB
    obtain rfl := loop_yields hy (.inl rfl)
    exact absurd (hx.subset (List.mem_singleton.2 rfl)) (by decide))
  obtain ⟨h7, h8⟩ := h5 s res h6
  cases res with
  | ok b => exact absurd (h7.1 ⟨b, rfl⟩) (by rintro (h | h); cases h; exact loop_no_55 h)
  | error e =>
    obtain ⟨i, t, h9, rfl, _⟩ := h8 e rfl
    have : t = 5 := by
      have := List.mem_of_getElem? h9
      simpa using this
    subst this
    exact ⟨s0, s, i, h3, h6⟩

end Gearley.Props
