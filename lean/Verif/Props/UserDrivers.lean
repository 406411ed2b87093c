import Verif.Props.User
import Verif.Props.Drivers

/-!
# C32 in terms of the user's grammar
-/

namespace Gearley.Props
open Gearley.Spec Build
variable {U : URules} {N : Names U} {w : WrappedRoot} {g0 : Nat} {c nulling : Cfg} {X : CfgCrate} {σ ν : Type}

/-- C32, `parse_terminal_list`, for words that are names of tokens. It returns `Ok(true)` exactly if the tokens can be derived from the
root of the user's grammar, and in every other case `Err(Finish)`. -/
theorem C32_terminal_list_user {E : Env σ ν} {f : σ} (h : UserParser X U N w g0 c nulling E.g) (hleo : E.leo = false)
    (hF : ∀ dots syms, SafeStart E.F f dots syms) {nameMap : List Char → Option Nat} {words : List (List Char)} {toks : List Nat}
    (hw : words.map nameMap = toks.map some) (ht : Tokens U c toks) (hlen : toks.length + 1 < 2 ^ 64 - 1) :
    ∃ res, Rec.parseTerminalList E f nameMap words = pure res ∧ (res = .ok true ↔ Yields U w.innerRoot toks) ∧
      (res ≠ .ok true → res = .error .finish) := by
  obtain ⟨c', n, w', int, hB, hi, hterm, hd⟩ := parser_setup h.crate h.ok h.acyclic h.made h.wrap
  have ht' := ht.terminal h.bin
  obtain ⟨res, h1, h2, h3⟩ := C32_terminal_list hB hleo (hF _ _) hw (internals_map fun t h => hi t (ht' t h).1)
    (by
      intro x hx
      obtain ⟨t, h, rfl⟩ := List.mem_map.1 hx
      exact hterm t (ht' t h).1 (ht' t h).2) (by simpa using hlen)
  exact ⟨res, h1, h2.trans ((hd toks fun t h => (ht' t h).1).trans (h.language ht)), h3⟩

/-- C32, `parse_terminal_list`, when a word is unknown. -/
theorem C32_unknown_word_user {E : Env σ ν} {f : σ} (h : UserParser X U N w g0 c nulling E.g) (hleo : E.leo = false)
    (hF : ∀ dots syms, SafeStart E.F f dots syms) {nameMap : List Char → Option Nat} {pre post : List (List Char)} {toks : List Nat}
    {bad : List Char} (hw : pre.map nameMap = toks.map some) (hb : nameMap bad = none) :
    Rec.parseTerminalList E f nameMap (pre ++ bad :: post) = pure (.error (.tokenize bad)) := by
  obtain ⟨c', n, w', int, hB, _⟩ := parser_setup h.crate h.ok h.acyclic h.made h.wrap
  exact C32_unknown_word hB hleo (hF _ _) hw hb

/-- Each character is read as one of its terminals. -/
def Reading (lexer : Nat → List Nat) (input toks : List Nat) : Prop := List.Forall₂ (fun ch t => t ∈ lexer ch) input toks

theorem picks_reading {w : WrappedRoot} {lexer : Nat → List Nat} {int : Nat → Nat} {input u : List Nat} (hu : u.length = input.length + 1)
    (hp : Picks (inputOf (tokenizingSteps w (fun ch => (lexer ch).map int) input)) 0 u) :
    ∃ toks, u = w.sof :: toks.map int ∧ Reading lexer input toks := by
  cases u with
  | nil => simp at hu
  | cons a u =>
    have h0 := picks_get hp (k := 0) rfl
    obtain ⟨x, hx⟩ := h0
    simp only [Nat.add_zero, inputOf, tokenizingSteps, List.getElem?_cons_zero, List.mem_singleton, Prod.mk.injEq] at hx
    obtain ⟨rfl, _⟩ := hx
    have key : ∀ (k : Nat) (b ch : Nat), u[k]? = some b → input[k]? = some ch → ∃ t ∈ lexer ch, b = int t := by
      intro k b ch hb hch
      obtain ⟨y, hy⟩ := picks_get hp (k := k + 1) (a := b) (by simpa using hb)
      simp only [Nat.zero_add, inputOf, tokenizingSteps, List.getElem?_cons_succ, List.getElem?_map, hch, Option.map_some] at hy
      obtain ⟨z, hz, he⟩ := List.mem_map.1 hy
      obtain ⟨t, ht, rfl⟩ := List.mem_map.1 hz
      cases he
      exact ⟨t, ht, rfl⟩
    have hlen : u.length = input.length := by simpa using hu
    clear hp hu
    suffices h : ∃ toks, u = toks.map int ∧ Reading lexer input toks by
      obtain ⟨toks, h1, h2⟩ := h
      exact ⟨toks, by rw [h1], h2⟩
    induction input generalizing u with
    | nil =>
      obtain rfl : u = [] := List.length_eq_zero_iff.1 hlen
      exact ⟨[], rfl, .nil⟩
    | cons ch input ih =>
      cases u with
      | nil => simp at hlen
      | cons b u =>
        obtain ⟨t, ht, rfl⟩ := key 0 b ch rfl rfl
        obtain ⟨toks, h1, h2⟩ := ih u (fun k b ch hb hch => key (k + 1) b ch hb hch) (by simpa using hlen)
        exact ⟨t :: toks, by rw [h1]; rfl, .cons ht h2⟩

theorem reading_picks {w : WrappedRoot} {lexer : Nat → List Nat} {int : Nat → Nat} {input toks : List Nat} (h : Reading lexer input toks) :
    Picks (inputOf (tokenizingSteps w (fun ch => (lexer ch).map int) input)) 0 (w.sof :: toks.map int) := by
  refine picks_of_get fun k a ha => ?_
  cases k with
  | zero =>
    simp only [List.getElem?_cons_zero, Option.some.injEq] at ha
    subst ha
    exact ⟨0, by simp [inputOf, tokenizingSteps]⟩
  | succ k =>
    simp only [List.getElem?_cons_succ, List.getElem?_map, Option.map_eq_some_iff] at ha
    obtain ⟨t, ht, rfl⟩ := ha
    have hk : k < input.length := by
      have := (List.getElem?_eq_some_iff.1 ht).1
      have := h.length_eq
      omega
    have hm : t ∈ lexer input[k] := by
      have hk' := (List.getElem?_eq_some_iff.1 ht).1
      have := (List.forall₂_iff_get.1 h).2 k hk hk'
      simp only [List.get_eq_getElem] at this
      rwa [(List.getElem?_eq_some_iff.1 ht).2] at this
    refine ⟨input[k], ?_⟩
    simp only [Nat.zero_add, inputOf, tokenizingSteps, List.getElem?_cons_succ, List.getElem?_map, List.getElem?_eq_getElem hk, Option.map_some]
    exact List.mem_map.2 ⟨int t, List.mem_map_of_mem hm, rfl⟩

/-- C32, `parse_tokenizing`. It returns `Ok(true)` exactly if every character can be read as one of its terminals such that the result
can be derived from the root of the user's grammar; never `Ok(false)`. -/
theorem C32_tokenizing_user {E : Env σ ν} {f : σ} (h : UserParser X U N w g0 c nulling E.g) (hleo : E.leo = false)
    (hF : ∀ dots syms, SafeStart E.F f dots syms) {lexer : Nat → List Nat} {input : List Nat} (ht : ∀ ch ∈ input, Tokens U c (lexer ch))
    (hch : ∀ ch ∈ input, ch < 2 ^ 32) (hlen : input.length + 1 < 2 ^ 64 - 1) :
    ∃ res, Rec.parseTokenizing E f lexer input = pure res ∧
      (res = .ok true ↔ ∃ toks, Reading lexer input toks ∧ Yields U w.innerRoot toks) ∧ res ≠ .ok false := by
  obtain ⟨c', n, w', int, hB, hi, hterm, hd⟩ := parser_setup h.crate h.ok h.acyclic h.made h.wrap
  have ht' := fun ch hc => (ht ch hc).terminal h.bin
  obtain ⟨res, h1, h2, h3, _⟩ := C32_tokenizing hB hleo (hF _ _) (lexer := lexer) (lex := fun ch => (lexer ch).map int)
    (fun ch hc => internals_map fun t h => hi t (ht' ch hc t h).1)
    (by
      intro ch hc x hx
      obtain ⟨t, h, rfl⟩ := List.mem_map.1 hx
      exact hterm t (ht' ch hc t h).1 (ht' ch hc t h).2) hch hlen
  have hall : ∀ toks, Reading lexer input toks → Tokens U c toks := by
    intro toks hr t htm
    obtain ⟨k, hk⟩ := List.mem_iff_getElem?.1 htm
    have hk' := (List.getElem?_eq_some_iff.1 hk).1
    have hl := hr.length_eq
    have := (List.forall₂_iff_get.1 hr).2 k (by omega) hk'
    simp only [List.get_eq_getElem] at this
    rw [(List.getElem?_eq_some_iff.1 hk).2] at this
    exact ht _ (List.getElem_mem _) t this
  refine ⟨res, h1, h2.trans ?_, h3⟩
  constructor
  · rintro ⟨u, hu, hp, hD⟩
    obtain ⟨toks, rfl, hr⟩ := picks_reading (by simpa [tokenizingSteps] using hu) hp
    exact ⟨toks, hr, (h.language (hall toks hr)).1 ((hd toks fun t h' => ((hall toks hr).terminal h.bin t h').1).1 hD)⟩
  · rintro ⟨toks, hr, hy⟩
    refine ⟨_, ?_, reading_picks hr, (hd toks fun t h' => ((hall toks hr).terminal h.bin t h').1).2 ((h.language (hall toks hr)).2 hy)⟩
    have := hr.length_eq
    simp [tokenizingSteps, this]

end Gearley.Props
