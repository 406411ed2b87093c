import Verif.Proofs.UserForest
import Verif.Props.UserCycle
import Verif.Props.ForestStarts

/-!
# C64: forests and values of the user's grammar, with or without cycles

C13, C14, C20 and C55 hold whenever `parse` returns (C63 tells when it does).
-/

namespace Gearley.Props
open Gearley.Spec Build
variable {U : URules} {N : Names U} {w : WrappedRoot} {g0 : Nat} {c nulling : Cfg} {X : CfgCrate} {σ α : Type}

theorem simple_safe {E : Env Simple.Bocage Nat} {b : Simple.Bocage} (hF : E.F = Simple.forest) (hb : Simple.Bocage.new E.g.forestInfo = pure b)
    (dots syms : Nat) : SafeStart E.F b dots syms := hF ▸ (C02_forests dots syms).2.1 _ _ hb

theorem compact_safe {E : Env Compact.Bocage Nat} (hF : E.F = Compact.forest) (b : Compact.Bocage) (dots syms : Nat) :
    SafeStart E.F b dots syms := hF ▸ (C02_forests dots syms).2.2 b

/-- C64, simple bocage. If `parse` returned `Ok(true)` on a non-empty string, the finished node represents a list of trees that
read as the derivation trees of the string in the user's grammar, each of them once. -/
theorem C64_trees_simple {E : Env Simple.Bocage Nat} {b : Simple.Bocage} {s0 s : Rec Simple.Bocage Nat} (h : ParserOf X U N w g0 c nulling E.g)
    (hk : EmptyKept U N c nulling E.g) (hleo : E.leo = false) (hF : E.F = Simple.forest) (hb : Simple.Bocage.new E.g.forestInfo = pure b)
    (hr32 : c.rules.length < 2 ^ 32) (hs32 : c.numSyms ≤ 2 ^ 32) {toks : List Nat} (ht : Tokens U c toks) (hne : toks ≠ [])
    (hlen : toks.length + 1 < 2 ^ 64 - 1) (h0 : Rec.new E b = pure s0) (hp : Rec.parse E s0 toks = pure (s, .ok true)) :
    ∃ ext x, (∀ a, Occurs c a → E.g.toInternal a = pure (some (intNum ext a))) ∧ Rec.finishedNode E s = pure (some x) ∧
      (s.forest.graph.length < 2 ^ 32 → ∃ ts us, Simple.Den s.forest.graph x ts ∧ us.Nodup ∧
        (∀ u, u ∈ us ↔ UTreeOf U (tokInput toks) u w.innerRoot 0 toks.length) ∧ List.Forall₂ (ReadsAs N ext E.g.forestInfo) ts us) := by
  have hsafe := simple_safe hF hb
  obtain ⟨ext, c', n, hO⟩ := h.ours hk hleo hsafe hr32 hs32 ht hlen h0 hp
  obtain ⟨s0', h1, _, h2⟩ := C63_user_verdict h hleo hsafe ht hlen
  rw [h0] at h1
  cases pure_inj_M h1
  have hy := (h2 _ _ hp).1 rfl
  obtain ⟨r, x, h3, h4, h5, _, h6⟩ := finished_simple hO.good hF hb (hO.accepts ht hne hy)
  obtain ⟨s0', h7, h8⟩ := hO.parse h3 h4 h5
  rw [h0] at h7
  cases pure_inj_M h7
  rw [hp] at h8
  cases pure_inj_M h8
  refine ⟨ext, x, hO.known, h5, fun hl => ?_⟩
  obtain ⟨⟨ts, hd, hn, hts⟩, _⟩ := h6 hl
  obtain ⟨us, h9, h10, h11⟩ := hO.reads ht h.inner.1 h.inner.2 hne hn hts
  exact ⟨ts, us, hd, h9, h10, h11⟩

/-- C64, compact bocage. -/
theorem C64_trees_compact {E : Env Compact.Bocage Nat} {b : Compact.Bocage} {s0 s : Rec Compact.Bocage Nat} (h : ParserOf X U N w g0 c nulling E.g)
    (hk : EmptyKept U N c nulling E.g) (hleo : E.leo = false) (hF : E.F = Compact.forest) (hb : Compact.Bocage.new E.g.forestInfo = pure b)
    (hr32 : c.rules.length < 2 ^ 32) (hs32 : c.numSyms ≤ 2 ^ 32) {toks : List Nat} (ht : Tokens U c toks) (hne : toks ≠ [])
    (hlen : toks.length + 1 < 2 ^ 64 - 1) (h0 : Rec.new E b = pure s0) (hp : Rec.parse E s0 toks = pure (s, .ok true)) :
    ∃ ext x, (∀ a, Occurs c a → E.g.toInternal a = pure (some (intNum ext a))) ∧ Rec.finishedNode E s = pure (some x) ∧
      (s.forest.graph.length < 2 ^ 32 → ∃ ts us, Compact.Den s.forest.graph x ts ∧ us.Nodup ∧
        (∀ u, u ∈ us ↔ UTreeOf U (tokInput toks) u w.innerRoot 0 toks.length) ∧ List.Forall₂ (ReadsAs N ext E.g.forestInfo) ts us) := by
  have hsafe := compact_safe hF b
  obtain ⟨ext, c', n, hO⟩ := h.ours hk hleo hsafe hr32 hs32 ht hlen h0 hp
  obtain ⟨s0', h1, _, h2⟩ := C63_user_verdict h hleo hsafe ht hlen
  rw [h0] at h1
  cases pure_inj_M h1
  have hy := (h2 _ _ hp).1 rfl
  obtain ⟨r, x, h3, h4, h5, _, h6⟩ := finished_compact hO.good hF hb (hO.accepts ht hne hy)
  obtain ⟨s0', h7, h8⟩ := hO.parse h3 h4 h5
  rw [h0] at h7
  cases pure_inj_M h7
  rw [hp] at h8
  cases pure_inj_M h8
  refine ⟨ext, x, hO.known, h5, fun hl => ?_⟩
  obtain ⟨⟨ts, hd, hn, hts⟩, _⟩ := h6 hl
  obtain ⟨us, h9, h10, h11⟩ := hO.reads ht h.inner.1 h.inner.2 hne hn hts
  exact ⟨ts, us, hd, h9, h10, h11⟩

/-- C64, simple bocage. If `parse` returned on a non-empty string with exactly one derivation tree in the user's grammar, it
returned `Ok(true)`, and the evaluation of the finished node computes the value of the tree, as in C55. -/
theorem C64_values_simple {E : Env Simple.Bocage Nat} {b : Simple.Bocage} {s0 s : Rec Simple.Bocage Nat} {res} (h : ParserOf X U N w g0 c nulling E.g)
    (hk : EmptyKept U N c nulling E.g) (hleo : E.leo = false) (hF : E.F = Simple.forest) (hb : Simple.Bocage.new E.g.forestInfo = pure b)
    (hr32 : c.rules.length < 2 ^ 32) (hs32 : c.numSyms ≤ 2 ^ 32) {toks : List Nat} (ht : Tokens U c toks) (hne : toks ≠ [])
    (hlen : toks.length + 1 < 2 ^ 64 - 1) (h0 : Rec.new E b = pure s0) (hp : Rec.parse E s0 toks = pure (s, res))
    {u : UTree} (hu : ∀ u', UTreeOf U (tokInput toks) u' w.innerRoot 0 toks.length ↔ u' = u) :
    res = .ok true ∧ ∃ int x, (∀ a, Occurs c a → E.g.toInternal a = pure (some (int a))) ∧
      (∀ a y, a < c.numSyms → E.g.toInternal a = pure (some y) → int a = y) ∧ Rec.finishedNode E s = pure (some x) ∧
      ∀ (ev : Evaluator α) (nul : Nat → α), (∀ a rs, ev.nulling a rs = rs ++ [nul a]) → s.forest.graph.length + 2 * u.size ≤ 2 ^ 32 →
        ∃ b', s.forest.evaluate ev x = pure (b', [uval (userEval int ev) (fun a => nul (int a)) u]) := by
  obtain ⟨ext, c', n, hO⟩ := h.ours hk hleo (simple_safe hF hb) hr32 hs32 ht hlen h0 hp
  obtain ⟨d, t, t1, t2, t3⟩ := hO.unique ht h.inner.1 h.inner.2 hne hu
  obtain ⟨r, x, h1, h2, h3, h4⟩ := C20_simple_partial (α := α) hO.good hF hb t3
  obtain ⟨s0', h5, h6⟩ := hO.parse h1 h2 h3
  rw [h0] at h5
  cases pure_inj_M h5
  rw [hp] at h6
  cases pure_inj_M h6
  refine ⟨rfl, intNum ext, x, hO.known, hO.only, h3, fun ev nul hev hl => ?_⟩
  obtain ⟨nv, nc, hN, h7, h8⟩ := hO.values h.inner.2 t1 t2 hev
  obtain ⟨b', h9, _⟩ := h4 ev nv nc hN (by omega)
  exact ⟨b', by rw [h9, h7]⟩

/-- C64, compact bocage. -/
theorem C64_values_compact {E : Env Compact.Bocage Nat} {b : Compact.Bocage} {s0 s : Rec Compact.Bocage Nat} {res} (h : ParserOf X U N w g0 c nulling E.g)
    (hk : EmptyKept U N c nulling E.g) (hleo : E.leo = false) (hF : E.F = Compact.forest) (hb : Compact.Bocage.new E.g.forestInfo = pure b)
    (hr32 : c.rules.length < 2 ^ 32) (hs32 : c.numSyms ≤ 2 ^ 32) {toks : List Nat} (ht : Tokens U c toks) (hne : toks ≠ [])
    (hlen : toks.length + 1 < 2 ^ 64 - 1) (h0 : Rec.new E b = pure s0) (hp : Rec.parse E s0 toks = pure (s, res))
    {u : UTree} (hu : ∀ u', UTreeOf U (tokInput toks) u' w.innerRoot 0 toks.length ↔ u' = u) :
    res = .ok true ∧ ∃ int x, (∀ a, Occurs c a → E.g.toInternal a = pure (some (int a))) ∧
      (∀ a y, a < c.numSyms → E.g.toInternal a = pure (some y) → int a = y) ∧ Rec.finishedNode E s = pure (some x) ∧
      ∀ (ev : Evaluator α) (nul : Nat → α), (∀ a rs, ev.nulling a rs = rs ++ [nul a]) → s.forest.graph.length + 18 * u.size ≤ 2 ^ 32 →
        ∃ b', s.forest.evaluate ev x = pure (b', [uval (userEval int ev) (fun a => nul (int a)) u]) := by
  obtain ⟨ext, c', n, hO⟩ := h.ours hk hleo (compact_safe hF b) hr32 hs32 ht hlen h0 hp
  obtain ⟨d, t, t1, t2, t3⟩ := hO.unique ht h.inner.1 h.inner.2 hne hu
  obtain ⟨r, x, h1, h2, h3, h4⟩ := C20_compact_partial (α := α) hO.good hF hb t3
  obtain ⟨s0', h5, h6⟩ := hO.parse h1 h2 h3
  rw [h0] at h5
  cases pure_inj_M h5
  rw [hp] at h6
  cases pure_inj_M h6
  refine ⟨rfl, intNum ext, x, hO.known, hO.only, h3, fun ev nul hev hl => ?_⟩
  obtain ⟨nv, nc, hN, h7, h8⟩ := hO.values h.inner.2 t1 t2 hev
  obtain ⟨b', h9, _⟩ := h4 ev nv nc hN (by omega)
  exact ⟨b', by rw [h9, h7]⟩

/-! ### The empty string -/

/-- `parse` returns on the empty string, whatever cycles the grammar has. -/
theorem C64_empty {E : Env σ Nat} {f : σ} (h : ParserOf X U N w g0 c nulling E.g) (hk : EmptyKept U N c nulling E.g) (hleo : E.leo = false)
    (hF : ∀ dots syms, SafeStart E.F f dots syms) :
    ∃ s0 s res, Rec.new E f = pure s0 ∧ Rec.parse E s0 [] = pure (s, res) ∧ (res = .ok true ↔ UNullable U w.innerRoot) := by
  obtain ⟨s0, s, res, h1, h2, h3⟩ := C63_user_returns h hk hleo hF (toks := []) (by intro t h; cases h) (by decide)
    (fun B x _ hx hi => absurd (List.infix_nil.1 hi) hx)
  obtain ⟨r, hr, hroot⟩ := h.root
  have hnt : ¬ UTerminal U w.innerRoot := fun hT => hT r hr hroot
  exact ⟨s0, s, res, h1, h2, h3.trans ⟨fun hy => UNullable.iff_yields.2 ⟨hy, hnt⟩, fun hn => hn.yields⟩⟩

/-- C64, simple bocage. If the root of the user's grammar is nullable, `parse` returns `Ok(true)` on the empty string, and the
evaluation of the finished node gives the value `nulling` has for the root. -/
theorem C64_empty_simple {E : Env Simple.Bocage Nat} {b : Simple.Bocage} (h : ParserOf X U N w g0 c nulling E.g)
    (hk : EmptyKept U N c nulling E.g) (hleo : E.leo = false) (hF : E.F = Simple.forest) (hb : Simple.Bocage.new E.g.forestInfo = pure b)
    (hr32 : c.rules.length < 2 ^ 32) (hs32 : c.numSyms ≤ 2 ^ 32) (hn : UNullable U w.innerRoot) :
    ∃ (int : Nat → Nat) (s0 s : Rec Simple.Bocage Nat) (x : Nat), (∀ a, Occurs c a → E.g.toInternal a = pure (some (int a))) ∧
      (∀ a y, a < c.numSyms → E.g.toInternal a = pure (some y) → int a = y) ∧
      Rec.new E b = pure s0 ∧ Rec.parse E s0 [] = pure (s, .ok true) ∧ Rec.finishedNode E s = pure (some x) ∧
      ∀ ev : Evaluator α, s.forest.graph.length < 2 ^ 32 → s.forest.evaluate ev x = pure (s.forest, ev.nulling (int w.innerRoot) []) := by
  obtain ⟨s0, s, res, h1, h2, h3⟩ := C64_empty h hk hleo (simple_safe hF hb)
  rw [h3.2 hn] at h2
  obtain ⟨ext, c', n, hO⟩ := h.ours hk hleo (simple_safe hF hb) hr32 hs32 (toks := []) (by intro t h; cases h) (by decide) h1 h2
  obtain ⟨d, hd⟩ := hO.empty hn
  obtain ⟨r, x, h4, h5, h6⟩ := C20_empty_simple (α := α) hO.good hF hb hd
  obtain ⟨r', x', h7, h8, h9, _⟩ := finished_simple hO.good hF hb (hO.good.accepts ((hd _).2 rfl))
  cases pure_inj_M (h4.symm.trans h7)
  obtain ⟨s0', h10, h11⟩ := hO.parse h7 h8 h9
  rw [h1] at h10
  cases pure_inj_M h10
  rw [h2] at h11
  cases pure_inj_M h11
  exact ⟨intNum ext, s0, r.1, x, hO.known, hO.only, h1, h2, h5, h6⟩

/-- C64, compact bocage. On the empty string the evaluation gives no value at all. -/
theorem C64_empty_compact {E : Env Compact.Bocage Nat} {b : Compact.Bocage} (h : ParserOf X U N w g0 c nulling E.g)
    (hk : EmptyKept U N c nulling E.g) (hleo : E.leo = false) (hF : E.F = Compact.forest) (hb : Compact.Bocage.new E.g.forestInfo = pure b)
    (hr32 : c.rules.length < 2 ^ 32) (hs32 : c.numSyms ≤ 2 ^ 32) (hn : UNullable U w.innerRoot) :
    ∃ s0 s x, Rec.new E b = pure s0 ∧ Rec.parse E s0 [] = pure (s, .ok true) ∧ Rec.finishedNode E s = pure (some x) ∧
      ∀ ev : Evaluator α, s.forest.graph.length < 2 ^ 32 → s.forest.evaluate ev x = pure (s.forest, []) := by
  obtain ⟨s0, s, res, h1, h2, h3⟩ := C64_empty h hk hleo (compact_safe hF b)
  rw [h3.2 hn] at h2
  obtain ⟨ext, c', n, hO⟩ := h.ours hk hleo (compact_safe hF b) hr32 hs32 (toks := []) (by intro t h; cases h) (by decide) h1 h2
  obtain ⟨d, hd⟩ := hO.empty hn
  obtain ⟨r, x, h4, h5, h6⟩ := C20_empty_compact (α := α) hO.good hF hb hd
  obtain ⟨r', x', h7, h8, h9, _⟩ := finished_compact hO.good hF hb (hO.good.accepts ((hd _).2 rfl))
  cases pure_inj_M (h4.symm.trans h7)
  obtain ⟨s0', h10, h11⟩ := hO.parse h7 h8 h9
  rw [h1] at h10
  cases pure_inj_M h10
  rw [h2] at h11
  cases pure_inj_M h11
  exact ⟨s0, r.1, x, h1, h2, h5, h6⟩

/-! ### Examples -/

/-- The string `d` has exactly one tree in the grammar `S ::= A b c | a b d | d`, `A ::= A | a`. -/
theorem loop_d (u : UTree) : UTreeOf loopRules (tokInput [5]) u 0 0 1 ↔ u = .node 2 [.leaf 5 0] := by
  constructor
  · intro h
    cases h with
    | leaf h => simp [tokInput] at h
    | @node k A i j rhs kids hk hkids hij =>
      match k, hk with
      | 0, hk' =>
        cases hk'
        cases hkids with | cons h1 h => cases h with | cons h2 h => cases h with | cons h3 h => cases h with | nil =>
        obtain ⟨_, _, e3⟩ := loop_leaf h3 (by decide)
        obtain ⟨e2, _, e⟩ := loop_leaf h2 (by decide)
        have := UTreeOf.le h1
        omega
      | 1, hk' =>
        cases hk'
        cases hkids with | cons h1 h =>
        obtain ⟨e, _⟩ := loop_leaf h1 (by decide)
        cases e
      | 2, hk' =>
        cases hk'
        cases hkids with | cons h1 h => cases h with | nil =>
        obtain ⟨_, rfl, _⟩ := loop_leaf h1 (by decide)
        rfl
      | 3, hk' => cases hk'
      | 4, hk' => cases hk'
      | k + 5, hk' => simp [loopRules] at hk'
  · rintro rfl
    exact .node (k := 2) (rhs := [5]) rfl (.cons (.leaf (by simp [tokInput])) .nil) (by decide)

/-- There is a parser of this grammar, which has a cycle; it returns on `d`, the finished node has one tree, and its evaluation
applies rule 2 to the value of the token. -/
example : ∃ (N : Names loopRules) (w : WrappedRoot) (g0 : Nat) (c nulling : Cfg) (g : DefaultGrammar) (b : Simple.Bocage),
    ParserOf plainCrate loopRules N w g0 c nulling g ∧ ¬ UAcyclic loopRules ∧
    ∀ {E : Env Simple.Bocage Nat}, E.g = g → E.leo = false → E.F = Simple.forest →
      ∃ s0 s x, Rec.new E b = pure s0 ∧ Rec.parse E s0 [5] = pure (s, .ok true) ∧ Rec.finishedNode E s = pure (some x) ∧
        (s.forest.graph.length < 2 ^ 32 → ∃ t, Simple.Den s.forest.graph x [t]) ∧ ∃ int : Nat → Nat,
        ∀ (ev : Evaluator α) (nul : Nat → α), (∀ a rs, ev.nulling a rs = rs ++ [nul a]) → s.forest.graph.length + 4 ≤ 2 ^ 32 →
          ∃ b', s.forest.evaluate ev x = pure (b', [ev.product 2 [ev.leaf (int 5) 0]]) := by
  obtain ⟨N, w, g0, c, nulling, g, hr, h1, h2, h3, h4, h5, ⟨b, hb⟩, _⟩ := C36_any_grammar (U := loopRules) (m := 6) (L := 4) (root := 0)
    (by decide) (by decide) (by decide) ⟨(0, [5]), by simp [loopRules], rfl⟩
  refine ⟨N, w, g0, c, nulling, g, b, h1, fun h => uacyclic_iff.1 h _ loop_cyclic, ?_⟩
  intro E hg hleo hF
  subst hg
  have ht := (h3 [5]).2 (by unfold UTerminal; decide)
  obtain ⟨s0, s, res, h6, h7, _⟩ := C63_user_returns h1 h2 hleo (simple_safe hF hb) ht (by decide) (by
    intro B x hB _ hx hy
    obtain rfl := loop_cyclic_only hB
    obtain rfl := loop_yields hy (.inl rfl)
    revert hx
    decide)
  obtain ⟨rfl, int, x, _, _, h8, h9⟩ := C64_values_simple (α := α) h1 h2 hleo hF hb h4 h5 ht (by simp) (by decide) h6 h7
    (u := .node 2 [.leaf 5 0]) (by rw [hr]; exact loop_d)
  obtain ⟨ext, x', _, h10, h11⟩ := C64_trees_simple h1 h2 hleo hF hb h4 h5 ht (by simp) (by decide) h6 h7
  rw [h8] at h10
  cases pure_inj_M h10
  refine ⟨s0, s, x, h6, h7, h8, fun hl => ?_, int, fun ev nul hev hl => h9 ev nul hev hl⟩
  obtain ⟨ts, us, hd, hn, hus, hf⟩ := h11 hl
  rw [hr] at hus
  have : us = [.node 2 [.leaf 5 0]] := eq_single hn ((hus _).2 ((loop_d _).2 rfl)) fun u hu => (loop_d u).1 ((hus u).1 hu)
  subst this
  obtain ⟨t, rfl⟩ := List.length_eq_one_iff.1 hf.length_eq
  exact ⟨t, hd⟩

-- a session with the grammar `S ::= S | a` that returns, and C13 and C14 for it
open Gearley.Example in
example : ∃ b r, (Rec.new { g := Cyclic.grammar, F := Simple.forest, sorter := sorter } b >>=
      Rec.session { g := Cyclic.grammar, F := Simple.forest, sorter := sorter } [(.keep, [(1, 0)])]) = pure r ∧
    ∃ N, Rec.finishedNode { g := Cyclic.grammar, F := Simple.forest, sorter := sorter } r.1 = pure N ∧
      (N.isSome ↔ Accepts (rulesOf Cyclic.cfg) 5 [(.keep, [(1, 0)])]) := by
  let E : Env Simple.Bocage Nat := { g := Cyclic.grammar, F := Simple.forest, sorter := sorter }
  have h : (do
      let b ← Simple.Bocage.new Cyclic.grammar.forestInfo
      let r ← Rec.new E b >>= Rec.sessionWith E (Rec.completeAllFuel E 20) [(.keep, [(1, 0)])]
      pure r.2) = pure true := by decide +kernel
  obtain ⟨b, hb, h⟩ := bind_eq_pure h
  obtain ⟨r, hr, h⟩ := bind_eq_pure h
  have hr : (Rec.new E b >>= Rec.session E [(.keep, [(1, 0)])]) = pure r := by
    obtain ⟨s, h1, h2⟩ := bind_eq_pure hr
    rw [h1, pure_bind]
    exact Rec.session_below 20 _ _ _ h2
  refine ⟨b, r, hr, ?_⟩
  obtain ⟨g0, h1, h2, h3⟩ := C13_C14_returned_simple (E := E) Cyclic.prepared rfl rfl (Simple.new_summandCount hb) (by unfold TokensOK; decide)
    (by intro st hst x; simp at hst; subst hst; simp) (by decide) (by decide)
    (fun _ => by
      intro i st x hst hx
      match i with
      | 0 => cases hst; cases hx
      | i + 1 => cases hst) hr
  obtain ⟨N, h4, h5, _⟩ := h3 (pure_inj_M h)
  have hg : g0 = 5 := by
    have : ∀ r ∈ rulesOf Cyclic.cfg, r.lhs = 3 → r.rhs0 = 5 := by decide
    exact this _ h1 rfl
  subst hg
  exact ⟨N, h4, h5⟩

/-- The grammar `S ::= S | ε | a` has a cycle. Its parser returns on the empty string, with the value of `nulling`. -/
example : ∃ (N : Names [(0, [0]), (0, []), (0, [1])]) (w : WrappedRoot) (g0 : Nat) (c nulling : Cfg) (g : DefaultGrammar) (b : Simple.Bocage),
    ParserOf plainCrate [(0, [0]), (0, []), (0, [1])] N w g0 c nulling g ∧
    ∀ {E : Env Simple.Bocage Nat}, E.g = g → E.leo = false → E.F = Simple.forest →
      ∃ s0 s x, Rec.new E b = pure s0 ∧ Rec.parse E s0 [] = pure (s, .ok true) ∧ Rec.finishedNode E s = pure (some x) ∧
        ∀ ev : Evaluator α, s.forest.graph.length < 2 ^ 32 → ∃ a, s.forest.evaluate ev x = pure (s.forest, ev.nulling a []) := by
  obtain ⟨N, w, g0, c, nulling, g, hr, h1, h2, _, h4, h5, ⟨b, hb⟩, _⟩ := C36_any_grammar (U := [(0, [0]), (0, []), (0, [1])]) (m := 2) (L := 2)
    (root := 0) (by decide) (by decide) (by decide) ⟨(0, [0]), by simp, rfl⟩
  refine ⟨N, w, g0, c, nulling, g, b, h1, ?_⟩
  intro E hg hleo hF
  subst hg
  obtain ⟨int, s0, s, x, _, _, h6, h7, h8, h9⟩ := C64_empty_simple (α := α) h1 h2 hleo hF hb h4 h5
    (by rw [hr]; exact .rule (k := 1) (rhs := []) rfl (by simp))
  exact ⟨s0, s, x, h6, h7, h8, fun ev hl => ⟨_, h9 ev hl⟩⟩

end Gearley.Props
