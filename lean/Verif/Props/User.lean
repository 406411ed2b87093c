import Verif.Proofs.UserExists

/-!
# C55: the user's grammar

The other properties are about the wrapped and binarized grammar. Here the parser is related to the grammar the user wrote:
rules with right-hand sides of any length, which may be empty. The crate `cfg`, which is not modelled, binarizes the grammar,
eliminates empty rules and wraps the root; what it has to deliver is stated in Spec/User.lean and Spec/Binarized.lean.
-/

namespace Gearley.Props
open Gearley.Spec Build
variable {U : URules} {N : Names U} {w : WrappedRoot} {g0 : Nat} {c nulling : Cfg} {X : CfgCrate} {σ ν α : Type}

/-- C55. The derivation trees of the binarized grammar are the derivation trees of the user's grammar: there is a bijection
between the trees of the same symbol over the same part of the input. -/
theorem C55_trees (hb : Binarizes U N w g0 c) {inp : Input} (hin : InputOK U N inp) {A : Nat} (hA : Inner w g0 A) (hp : N.parts A = none) :
    ∃ F : PTree → UTree, ∀ i j, i < j →
      (∀ t, TreeOf (rulesOf c) inp t A i j → UTreeOf U inp (F t) A i j) ∧
      (∀ t t', TreeOf (rulesOf c) inp t A i j → TreeOf (rulesOf c) inp t' A i j → F t = F t' → t = t') ∧
      (∀ u, UTreeOf U inp u A i j → ∃ t, TreeOf (rulesOf c) inp t A i j ∧ F t = u) := by
  have hin' : ∀ i, ∀ p ∈ inp i, N.parts p.1 = none := fun i p hp => (hin i p hp).2
  have one : ∀ {t i j}, TreeOf (rulesOf c) inp t A i j → ∃ u, flat N (infoOf c) t = [u] ∧ UTreeOf U inp u A i j := fun h =>
    ((hb.flat_sound (info := infoOf c) rfl rfl hin' _ h hA).user hp).2
  refine ⟨fun t => (flat N (infoOf c) t).headD (.empty 0), fun i j hij => ⟨fun t ht => ?_, fun t t' ht ht' e => ?_, fun u hu => ?_⟩⟩
  · obtain ⟨u, h1, h2⟩ := one ht
    simpa [h1] using h2
  · obtain ⟨u, h1, _⟩ := one ht
    obtain ⟨u', h1', _⟩ := one ht'
    simp only [h1, h1', List.headD_cons] at e
    exact hb.flat_inj (info := infoOf c) rfl rfl hin' t ht hA t' ht' (by rw [h1, h1', e])
  · obtain ⟨t, h1, h2⟩ := hb.complete_tree (info := infoOf c) rfl rfl hin hu hij
    exact ⟨t, h1, by simp [h2]⟩

/-- C55. A non-empty string of tokens can be derived in the binarized grammar exactly if it can be derived in the user's grammar. -/
theorem C55_language (hb : Binarizes U N w g0 c) {A : Nat} (hA : Inner w g0 A) (hp : N.parts A = none) {toks : List Nat}
    (ht : ∀ t ∈ toks, UTerminal U t ∧ N.parts t = none) : Derives (rulesOf c) A toks ↔ toks ≠ [] ∧ Yields U A toks :=
  hb.derives_iff hA hp ht

/-- The language of the binarized grammar is that of the user's grammar. -/
theorem ParserOf.language {g : DefaultGrammar} (h : ParserOf X U N w g0 c nulling g) {toks : List Nat} (ht : Tokens U c toks) :
    (toks = [] ∧ UNullable U w.innerRoot) ∨ Derives (rulesOf c) w.innerRoot toks ↔ Yields U w.innerRoot toks := by
  obtain ⟨r, hr, hroot⟩ := h.root
  rw [h.bin.derives_iff h.inner.2 h.inner.1 (ht.user N)]
  have hnt : ¬ UTerminal U w.innerRoot := fun hT => hT r hr hroot
  constructor
  · rintro (⟨rfl, h4⟩ | ⟨_, h4⟩)
    · exact h4.yields
    · exact h4
  · intro h4
    by_cases he : toks = []
    · subst he
      exact .inl ⟨rfl, UNullable.iff_yields.2 ⟨h4, hnt⟩⟩
    · exact .inr ⟨he, h4⟩

/-- C55. `parse` returns `Ok(true)` exactly on the strings of tokens derived from the root of the user's grammar. This includes
the empty string. -/
theorem C55_accepts {E : Env σ ν} {f : σ} (h : UserParser X U N w g0 c nulling E.g) (hleo : E.leo = false)
    (hF : ∀ dots syms, SafeStart E.F f dots syms) {toks : List Nat} (ht : Tokens U c toks) (hlen : toks.length + 1 < 2 ^ 64 - 1) :
    ∃ s0 s res, Rec.new E f = pure s0 ∧ Rec.parse E s0 toks = pure (s, res) ∧ (res = .ok true ↔ Yields U w.innerRoot toks) := by
  obtain ⟨s0, s, res, h1, h2, h3⟩ := C46_language h.crate h.ok h.acyclic h.made hleo hF h.wrap (ht.terminal h.bin) hlen
  exact ⟨s0, s, res, h1, h2, h3.trans (h.language ht)⟩

/-- The evaluator as the user sees it: leaves are looked up by the numbers of the user's grammar. -/
def userEval {α : Type} (int : Nat → Nat) (ev : Evaluator α) : Evaluator α := { ev with leaf := fun s v => ev.leaf (int s) v }

theorem Ours.values {E : Env σ Nat} {toks ext : List Nat} {c' : Cfg} {n : Nat} (h : Ours U N w g0 c E toks ext c' n) (hI : Inner w g0 w.innerRoot)
    {u : UTree} {t : PTree} {i j : Nat} (h1 : flat (N.rename (ext_int ext)) E.g.forestInfo t = [u.rename (intNum ext)])
    (h2 : TreeOf (rulesOf c') (inputOf (parseSteps E.g.sofSym (toks.map (intNum ext)))) t (intNum ext w.innerRoot) i j) {ev : Evaluator α} {nul : Nat → α}
    (hev : ∀ s rs, ev.nulling s rs = rs ++ [nul s]) : ∃ nv nc, NullEval E.g.forestInfo ev nv nc ∧
      treeVals E.g.forestInfo ev nv t = [uval (userEval (intNum ext) ev) (fun s => nul (intNum ext s)) u] ∧
      treeCost E.g.forestInfo nc t < 2 * u.size := by
  obtain ⟨f1, f2, _, _⟩ := built_forestInfo h.good.prepared
  obtain ⟨nv, nc, hN, h0⟩ := h.empties.nullEval hev
  have hinj : ∀ {a b : Nat}, intNum ext a = intNum ext b → a = b := fun {a b} h => by rw [← ext_int ext a, h, ext_int]
  obtain ⟨h3, h4⟩ := h.bin.values f1 f2 (h.bin.emptyVals h.empties hN h0) t h2 ⟨fun e => hI.1 (hinj e), fun e => hI.2 (hinj e)⟩
  refine ⟨nv, nc, hN, ?_, ?_⟩
  · rw [h3, h1]
    show [uval ev nul (u.rename (intNum ext))] = _
    rw [uval_rename ev (userEval (intNum ext) ev) nul (intNum ext) (fun _ _ => rfl) (fun _ _ => rfl)]
  · rw [h1] at h4
    simp only [UTree.sizes, UTree.size_rename] at h4
    omega

/-- C55, simple bocage. If a non-empty string of tokens has exactly one derivation tree in the user's grammar, `parse` returns
`Ok(true)` and the evaluation of the finished node computes the value of that tree: each node of the tree is evaluated with the
number of its rule and the values of all symbols of the rule in order, where nullable symbols that derive the empty string have
the value given by `nulling`. The symbols passed to `leaf` and `nulling` are numbers of the parser, `int s` for the symbol `s`. -/
theorem C55_values_simple {E : Env Simple.Bocage Nat} {b : Simple.Bocage} (h : UserParser X U N w g0 c nulling E.g)
    (hk : EmptyKept U N c nulling E.g) (hleo : E.leo = false) (hF : E.F = Simple.forest) (hb : Simple.Bocage.new E.g.forestInfo = pure b)
    (hr32 : c.rules.length < 2 ^ 32) (hs32 : c.numSyms ≤ 2 ^ 32) {toks : List Nat} (ht : Tokens U c toks) (hne : toks ≠ [])
    (hlen : toks.length + 1 < 2 ^ 64 - 1) {u : UTree} (hu : ∀ u', UTreeOf U (tokInput toks) u' w.innerRoot 0 toks.length ↔ u' = u) :
    ∃ int s0 s x, (∀ a, Occurs c a → E.g.toInternal a = pure (some (int a))) ∧
      (∀ a y, a < c.numSyms → E.g.toInternal a = pure (some y) → int a = y) ∧
      Rec.new E b = pure s0 ∧ Rec.parse E s0 toks = pure (s, .ok true) ∧ Rec.finishedNode E s = pure (some x) ∧
      ∀ (ev : Evaluator α) (nul : Nat → α), (∀ a rs, ev.nulling a rs = rs ++ [nul a]) → s.forest.graph.length + 2 * u.size ≤ 2 ^ 32 →
        ∃ b', s.forest.evaluate ev x = pure (b', [uval (userEval int ev) (fun a => nul (int a)) u]) := by
  obtain ⟨ext, c', n, hO⟩ := h.ours hk hleo hr32 hs32 ht hlen
  obtain ⟨d, t, t1, t2, t3⟩ := hO.unique ht h.inner.1 h.inner.2 hne hu
  obtain ⟨r, x, h1, h2, h3, h4⟩ := C20_simple_partial (α := α) hO.good hF hb t3
  obtain ⟨s0, h5, h6⟩ := hO.parse h1 h2 h3
  refine ⟨intNum ext, s0, r.1, x, hO.known, hO.only, h5, h6, h3, fun ev nul hev hl => ?_⟩
  obtain ⟨nv, nc, hN, h7, h8⟩ := hO.values h.inner.2 t1 t2 hev
  obtain ⟨b', h9, _⟩ := h4 ev nv nc hN (by omega)
  exact ⟨b', by rw [h9, h7]⟩

/-- C55, compact bocage. -/
theorem C55_values_compact {E : Env Compact.Bocage Nat} {b : Compact.Bocage} (h : UserParser X U N w g0 c nulling E.g)
    (hk : EmptyKept U N c nulling E.g) (hleo : E.leo = false) (hF : E.F = Compact.forest) (hb : Compact.Bocage.new E.g.forestInfo = pure b)
    (hr32 : c.rules.length < 2 ^ 32) (hs32 : c.numSyms ≤ 2 ^ 32) {toks : List Nat} (ht : Tokens U c toks) (hne : toks ≠ [])
    (hlen : toks.length + 1 < 2 ^ 64 - 1) {u : UTree} (hu : ∀ u', UTreeOf U (tokInput toks) u' w.innerRoot 0 toks.length ↔ u' = u) :
    ∃ int s0 s x, (∀ a, Occurs c a → E.g.toInternal a = pure (some (int a))) ∧
      (∀ a y, a < c.numSyms → E.g.toInternal a = pure (some y) → int a = y) ∧
      Rec.new E b = pure s0 ∧ Rec.parse E s0 toks = pure (s, .ok true) ∧ Rec.finishedNode E s = pure (some x) ∧
      ∀ (ev : Evaluator α) (nul : Nat → α), (∀ a rs, ev.nulling a rs = rs ++ [nul a]) → s.forest.graph.length + 18 * u.size ≤ 2 ^ 32 →
        ∃ b', s.forest.evaluate ev x = pure (b', [uval (userEval int ev) (fun a => nul (int a)) u]) := by
  obtain ⟨ext, c', n, hO⟩ := h.ours hk hleo hr32 hs32 ht hlen
  obtain ⟨d, t, t1, t2, t3⟩ := hO.unique ht h.inner.1 h.inner.2 hne hu
  obtain ⟨r, x, h1, h2, h3, h4⟩ := C20_compact_partial (α := α) hO.good hF hb t3
  obtain ⟨s0, h5, h6⟩ := hO.parse h1 h2 h3
  refine ⟨intNum ext, s0, r.1, x, hO.known, hO.only, h5, h6, h3, fun ev nul hev hl => ?_⟩
  obtain ⟨nv, nc, hN, h7, h8⟩ := hO.values h.inner.2 t1 t2 hev
  obtain ⟨b', h9, _⟩ := h4 ev nv nc hN (by omega)
  exact ⟨b', by rw [h9, h7]⟩

theorem tokens_standard {m L root : Nat} (hm : ∀ r ∈ U, r.1 < m ∧ ∀ s ∈ r.2, s < m) (hL : ∀ r ∈ U, r.2.length < L)
    (h3 : ∀ t, (∃ r ∈ U, r.2 = [t] ∨ (2 ≤ r.2.length ∧ t ∈ r.2)) → Occurs (standardCfg U (standardNames U m L hm hL) m L root) t) (toks : List Nat) :
    Tokens U (standardCfg U (standardNames U m L hm hL) m L root) toks ↔ ∀ t ∈ toks, UTerminal U t ∧ ∃ r ∈ U, t ∈ r.2 := by
  constructor
  · exact fun h t ht => ⟨(h t ht).1, (h t ht).2.1⟩
  · intro h t ht
    obtain ⟨h4, r, hr, hmem⟩ := h t ht
    refine ⟨h4, ⟨r, hr, hmem⟩, h3 t ⟨r, hr, ?_⟩⟩
    match hl : r.2 with
    | [] => rw [hl] at hmem; cases hmem
    | [x] =>
      rw [hl] at hmem
      rw [List.mem_singleton.1 hmem]
      exact .inl rfl
    | x :: y :: l => exact .inr ⟨by simp, by rw [← hl]; exact hmem⟩

/-- Bounds for the symbols of a grammar and for the lengths of its rules. -/
theorem bounds_exist (U : URules) : ∃ m L, (∀ r ∈ U, r.1 < m ∧ ∀ s ∈ r.2, s < m) ∧ ∀ r ∈ U, r.2.length < L := by
  have le_sum : ∀ (l : List Nat), ∀ x ∈ l, x ≤ l.sum := by
    intro l
    induction l with
    | nil => simp
    | cons y l ih =>
      intro x hx
      rw [List.sum_cons]
      rcases List.mem_cons.1 hx with rfl | hx
      · omega
      · have := ih x hx
        omega
  obtain ⟨m, hm⟩ : ∃ m, ∀ r ∈ U, r.1 < m ∧ ∀ s ∈ r.2, s < m := by
    refine ⟨(U.map fun r => r.1 + r.2.sum + 1).sum, fun r hr => ?_⟩
    have h1 := le_sum (U.map fun r => r.1 + r.2.sum + 1) _ (List.mem_map_of_mem hr)
    refine ⟨by omega, fun s hs => ?_⟩
    have h2 := le_sum r.2 s hs
    omega
  obtain ⟨L, hL⟩ : ∃ L, ∀ r ∈ U, r.2.length < L := by
    refine ⟨(U.map fun r => r.2.length + 1).sum, fun r hr => ?_⟩
    have h1 := le_sum (U.map fun r => r.2.length + 1) _ (List.mem_map_of_mem hr)
    omega
  exact ⟨m, L, hm, hL⟩

/-- C55. For every grammar without cycles and every symbol with rules as its root there are a binarized grammar and a parser that
satisfy the assumptions above. So there is a parser that accepts exactly the language of the grammar. -/
theorem C55_every_grammar {root : Nat} (hroot : ∃ r ∈ U, r.1 = root) (ha : UAcyclic U) :
    ∃ (N : Names U) (w : WrappedRoot) (g0 : Nat) (c nulling : Cfg) (g : DefaultGrammar), w.innerRoot = root ∧
      UserParser plainCrate U N w g0 c nulling g ∧ EmptyKept U N c nulling g ∧
      (∀ toks, Tokens U c toks ↔ ∀ t ∈ toks, UTerminal U t ∧ ∃ r ∈ U, t ∈ r.2) ∧
      ∀ {σ ν : Type} {E : Env σ ν} {f : σ}, E.g = g → E.leo = false → (∀ dots syms, SafeStart E.F f dots syms) →
        ∀ toks : List Nat, (∀ t ∈ toks, UTerminal U t ∧ ∃ r ∈ U, t ∈ r.2) → toks.length + 1 < 2 ^ 64 - 1 →
          ∃ s0 s res, Rec.new E f = pure s0 ∧ Rec.parse E s0 toks = pure (s, res) ∧ (res = .ok true ↔ Yields U root toks) := by
  obtain ⟨m, L, hm, hL⟩ := bounds_exist U
  obtain ⟨g, h1, h2, h3⟩ := userParser_exists hm hL hroot ha
  have htok := tokens_standard (root := root) hm hL h3
  refine ⟨_, _, _, _, _, g, rfl, h1, h2, htok, ?_⟩
  intro σ ν E f hg hleo hF toks ht hlen
  subst hg
  exact C55_accepts h1 hleo hF ((htok toks).2 ht) hlen

/-! ### Examples -/

/-- `S ::= a c b`, `a ::= x | ε`, `c ::= y | ε`: `S` is 0, `a` 1, `c` 2, `b` 3, `x` 4, `y` 5. -/
def emptyRules : URules := [(0, [1, 2, 3]), (1, [4]), (1, []), (2, [5]), (2, [])]

theorem emptyRules_acyclic : UAcyclic emptyRules := by
  refine ⟨fun s => s, fun k A rhs j y hk hy hn => ?_⟩
  have h3 : ¬ UNullable emptyRules 3 := by
    intro h
    obtain ⟨hk, _⟩ := h
    have := List.mem_of_getElem? hk
    simp [emptyRules] at this
  have hmem := List.mem_of_getElem? hk
  simp only [emptyRules, List.mem_cons, List.not_mem_nil, or_false, Prod.mk.injEq] at hmem
  rcases hmem with ⟨rfl, rfl⟩ | ⟨rfl, rfl⟩ | ⟨rfl, rfl⟩ | ⟨rfl, rfl⟩ | ⟨rfl, rfl⟩
  · by_cases h : j = 2
    · subst h; cases hy; decide
    · exact absurd (hn 2 3 (by omega) rfl) h3
  · have := List.mem_of_getElem? hy; simp at this; subst this; decide
  · cases hy
  · have := List.mem_of_getElem? hy; simp at this; subst this; decide
  · cases hy

-- the assumptions can be met for this grammar, and `b` and `x b` are strings of tokens
example : ∃ (N : Names emptyRules) (w : WrappedRoot) (g0 : Nat) (c nulling : Cfg) (g : DefaultGrammar),
    UserParser plainCrate emptyRules N w g0 c nulling g ∧ EmptyKept emptyRules N c nulling g ∧ Tokens emptyRules c [3] ∧ Tokens emptyRules c [4, 3] := by
  obtain ⟨N, w, g0, c, nulling, g, _, h1, h2, h3, _⟩ := C55_every_grammar (root := 0) ⟨(0, [1, 2, 3]), by simp [emptyRules], rfl⟩ emptyRules_acyclic
  refine ⟨N, w, g0, c, nulling, g, h1, h2, (h3 _).2 ?_, (h3 _).2 ?_⟩ <;> unfold UTerminal <;> decide

theorem emptyRules_nullable (s : Nat) : UNullable emptyRules s ↔ s = 1 ∨ s = 2 := by
  constructor
  · rintro ⟨hk, hn⟩
    have := List.mem_of_getElem? hk
    simp only [emptyRules, List.mem_cons, List.not_mem_nil, or_false, Prod.mk.injEq] at this
    rcases this with ⟨rfl, rfl⟩ | ⟨rfl, rfl⟩ | ⟨rfl, rfl⟩ | ⟨rfl, rfl⟩ | ⟨rfl, rfl⟩
    · obtain ⟨hk', _⟩ := hn 3 (by simp)
      have := List.mem_of_getElem? hk'
      simp [emptyRules] at this
    · exact .inl rfl
    · exact .inl rfl
    · exact .inr rfl
    · exact .inr rfl
  · rintro (rfl | rfl)
    · exact .rule (k := 2) (rhs := []) rfl (by simp)
    · exact .rule (k := 4) (rhs := []) rfl (by simp)

/-- The string `b` has exactly one tree: rule 0 with two empty symbols and the token. -/
theorem emptyRules_tree (u : UTree) : UTreeOf emptyRules (tokInput [3]) u 0 0 1 ↔ u = .node 0 [.empty 1, .empty 2, .leaf 3 0] := by
  have hsmall : ∀ {t : UTree} {A i j : Nat}, UTreeOf emptyRules (tokInput [3]) t A i j → j ≤ 1 → A ≠ 0 → A ≠ 3 →
      j = i ∧ t = .empty A := by
    intro t A i j h hj h0 h3
    cases h with
    | @leaf a v i hm =>
      have : i = 0 := by omega
      subst this
      simp [tokInput] at hm
      omega
    | empty h => exact ⟨rfl, rfl⟩
    | @node k A i j rhs kids hk hkids hij =>
      exfalso
      have hmem := List.mem_of_getElem? hk
      simp only [emptyRules, List.mem_cons, List.not_mem_nil, or_false, Prod.mk.injEq] at hmem
      have leaf : ∀ {s : Nat}, UKids emptyRules (tokInput [3]) kids [s] i j → s = 4 ∨ s = 5 → False := by
        intro s h hs
        cases h with
        | cons h1 h2 =>
          cases h2
          cases h1 with
          | leaf hm =>
            have : i = 0 := by omega
            subst this
            simp [tokInput] at hm
            omega
          | empty _ => omega
          | node hk' _ _ =>
            have := List.mem_of_getElem? hk'
            simp [emptyRules] at this
            omega
      rcases hmem with ⟨rfl, rfl⟩ | ⟨rfl, rfl⟩ | ⟨rfl, rfl⟩ | ⟨rfl, rfl⟩ | ⟨rfl, rfl⟩
      · exact h0 rfl
      · exact leaf hkids (.inl rfl)
      · cases hkids; omega
      · exact leaf hkids (.inr rfl)
      · cases hkids; omega
  constructor
  · intro h
    cases h with
    | leaf hm => simp [tokInput] at hm
    | @node k A i j rhs kids hk hkids _ =>
      have : rhs = [1, 2, 3] ∧ k = 0 := by
        match k, hk with
        | 0, hk => cases hk; exact ⟨rfl, rfl⟩
        | 1, hk | 2, hk | 3, hk | 4, hk => cases hk
        | k + 5, hk => simp [emptyRules] at hk
      obtain ⟨rfl, rfl⟩ := this
      cases hkids with
      | @cons t1 s1 i1 k1 j1 ts ss h1 hr =>
      cases hr with
      | @cons t2 s2 i2 k2 j2 ts ss h2 hr =>
      cases hr with
      | @cons t3 s3 i3 k3 j3 ts ss h3 hr =>
      cases hr
      have a3 := UTreeOf.le h3
      have a2 := UTreeOf.le h2
      obtain ⟨rfl, rfl⟩ := hsmall h1 (by omega) (by decide) (by decide)
      obtain ⟨rfl, rfl⟩ := hsmall h2 (by omega) (by decide) (by decide)
      cases h3 with
      | leaf hm =>
        simp [tokInput] at hm
        subst hm
        rfl
      | node hk' _ _ =>
        have := List.mem_of_getElem? hk'
        simp [emptyRules] at this
  · rintro rfl
    exact .node (k := 0) (rhs := [1, 2, 3]) rfl (.cons (.empty ((emptyRules_nullable 1).2 (.inl rfl)))
      (.cons (.empty ((emptyRules_nullable 2).2 (.inr rfl))) (.cons (.leaf (by simp [tokInput])) .nil))) (by decide)

-- its value: rule 0 applied to the values of the two empty symbols and of the token
example : uval { leaf := fun s v => [s, v], product := fun k vs => k :: vs.flatten, nulling := fun s rs => rs ++ [[100 + s]], dflt := [] } (fun s => [100 + s])
    (.node 0 [.empty 1, .empty 2, .leaf 3 0]) = [0, 101, 102, 3, 0] := by decide

end Gearley.Props
