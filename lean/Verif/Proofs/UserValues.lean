import Verif.Proofs.UserParse

/-! # The values of the user's trees, in the numbers of the parser -/

namespace Gearley.Props
open Gearley.Spec Build
variable {U : URules} {N : Names U} {w : WrappedRoot} {g0 : Nat} {c nulling : Cfg} {X : CfgCrate} {σ ν α : Type}

/-- The parser `g` was made from the user's grammar `U`, which may have cycles. -/
structure ParserOf (X : CfgCrate) (U : URules) (N : Names U) (w : WrappedRoot) (g0 : Nat) (c nulling : Cfg) (g : DefaultGrammar) : Prop where
  crate : CrateOK X
  ok : BinarizedOK c w
  made : fromBinarized X c nulling = pure g
  bin : Binarizes U N w g0 c
  wrap : Wrapping (rulesOf c) w (UNullable U w.innerRoot)
  rule : ⟨w.root, g0, some w.eof⟩ ∈ rulesOf c
  root : ∃ r ∈ U, r.1 = w.innerRoot

/-- The parser `g` was made from the user's grammar `U`. -/
structure UserParser (X : CfgCrate) (U : URules) (N : Names U) (w : WrappedRoot) (g0 : Nat) (c nulling : Cfg) (g : DefaultGrammar) : Prop
    extends ParserOf X U N w g0 c nulling g where
  /-- no symbol derives itself -/
  acyclic : UnaryAcyclic (rulesOf c)

/-- The rules for empty symbols are kept. -/
structure EmptyKept (U : URules) (N : Names U) (c nulling : Cfg) (g : DefaultGrammar) : Prop where
  rules : EmptyCfg U N nulling
  syms : ∀ r ∈ nulling.rules, r.lhs < c.numSyms ∧ ∀ s ∈ r.rhs, s < c.numSyms
  /-- the parser knows the symbols that were removed from rules -/
  removed : ∀ r ∈ c.rules, ∀ p, r.nullable = some p → p.1 < c.numSyms ∧ g.toInternal p.1 ≠ pure none

/-- The tokens of the user's grammar: symbols without rules that are used in a rule and did not become useless. -/
def Tokens (U : URules) (c : Cfg) (toks : List Nat) : Prop := ∀ t ∈ toks, UTerminal U t ∧ (∃ r ∈ U, t ∈ r.2) ∧ Occurs c t

theorem Tokens.user {toks : List Nat} (N : Names U) (h : Tokens U c toks) : ∀ t ∈ toks, UTerminal U t ∧ N.parts t = none := by
  intro t ht
  obtain ⟨h1, ⟨r, hr, h2⟩, _⟩ := h t ht
  exact ⟨h1, (N.user r hr).2 t h2⟩

theorem Tokens.terminal {toks : List Nat} (hb : Binarizes U N w g0 c) (h : Tokens U c toks) : ∀ t ∈ toks, Occurs c t ∧ Terminal (rulesOf c) t := by
  intro t ht
  obtain ⟨h1, ⟨r, hr, h2⟩, h3⟩ := h t ht
  exact ⟨h3, hb.terminal h1 ((N.user r hr).2 t h2) (hb.inner_user hr h2)⟩

theorem ParserOf.inner {g : DefaultGrammar} (h : ParserOf X U N w g0 c nulling g) : N.parts w.innerRoot = none ∧ Inner w g0 w.innerRoot := by
  obtain ⟨r, hr, hroot⟩ := h.root
  refine ⟨hroot ▸ (N.user r hr).1, fun e => ?_, fun e => ?_⟩
  · exact ((h.bin.fresh _ (.inl e)).2 r hr).1 hroot
  · exact ((h.bin.fresh _ (.inr (.inl e))).2 r hr).1 hroot

/-- The rules for empty symbols in the parser. -/
theorem nullingIntermediate_mem {maps : Mapping} {L : List (Nat × Nat × Nat)} (h : nullingIntermediate maps nulling = pure L) (a b d : Nat) :
    (a, b, d) ∈ L ↔ ∃ r ∈ nulling.rules, r.origin = none ∧ ∃ x y, r.rhs = [x, y] ∧ toInternal maps r.lhs = pure (some a) ∧
      toInternal maps x = pure (some b) ∧ toInternal maps y = pure (some d) := by
  unfold nullingIntermediate at h
  have key : ∀ (l : List CfgRule) (acc L : List (Nat × Nat × Nat)), l.foldlM (fun acc rule =>
    if rule.origin = none ∧ rule.rhs.length = 2 then do
      let a ← toInternal maps rule.lhs
      let a ← unwrapM a
      let r0 ← indexM rule.rhs 0
      let b ← toInternal maps r0
      let b ← unwrapM b
      let r1 ← indexM rule.rhs 1
      let c ← toInternal maps r1
      let c ← unwrapM c
      pure (acc ++ [(a, b, c)])
    else pure acc) acc = (pure L : M (List (Nat × Nat × Nat))) → ((a, b, d) ∈ L ↔ (a, b, d) ∈ acc ∨ ∃ r ∈ l, r.origin = none ∧ ∃ x y,
      r.rhs = [x, y] ∧ toInternal maps r.lhs = pure (some a) ∧ toInternal maps x = pure (some b) ∧ toInternal maps y = pure (some d)) := by
    intro l
    induction l with
    | nil =>
      intro acc L h
      have := pure_inj_M h
      subst this
      simp
    | cons r l ih =>
      intro acc L h
      rw [List.foldlM_cons] at h
      by_cases hc : r.origin = none ∧ r.rhs.length = 2
      · rw [if_pos hc] at h
        obtain ⟨hc1, hc2⟩ := hc
        match hr : r.rhs, hc2 with
        | [x, y], _ =>
        simp only [hr] at h
        have un : ∀ {α : Type} {o : Option α} {v : α}, (unwrapM o : M α) = pure v → o = some v := by
          intro α o v h
          cases o with
          | none => cases h
          | some x => rw [pure_inj_M (show (pure x : M α) = pure v from h)]
        obtain ⟨acc', h1, h⟩ := bind_eq_pure h
        obtain ⟨o1, e1, h1⟩ := bind_eq_pure h1
        obtain ⟨a1, u1, h1⟩ := bind_eq_pure h1
        obtain ⟨r0, i0, h1⟩ := bind_eq_pure h1
        obtain ⟨o2, e2, h1⟩ := bind_eq_pure h1
        obtain ⟨a2, u2, h1⟩ := bind_eq_pure h1
        obtain ⟨r1, i1, h1⟩ := bind_eq_pure h1
        obtain ⟨o3, e3, h1⟩ := bind_eq_pure h1
        obtain ⟨a3, u3, h1⟩ := bind_eq_pure h1
        have := pure_inj_M h1
        subst this
        have := pure_inj_M (show (pure x : M Nat) = pure r0 from i0)
        subst this
        have := pure_inj_M (show (pure y : M Nat) = pure r1 from i1)
        subst this
        rw [un u1] at e1
        rw [un u2] at e2
        rw [un u3] at e3
        rw [ih _ _ h]
        simp only [List.mem_append, Prod.mk.injEq, List.mem_cons, List.not_mem_nil, or_false, exists_eq_or_imp]
        rw [or_assoc]
        refine or_congr_right (or_congr_left ?_)
        constructor
        · rintro ⟨rfl, rfl, rfl⟩
          exact ⟨hc1, x, y, hr, e1, e2, e3⟩
        · rintro ⟨_, x', y', hr', g1, g2, g3⟩
          rw [hr] at hr'
          cases hr'
          rw [e1] at g1
          rw [e2] at g2
          rw [e3] at g3
          cases pure_inj_M g1
          cases pure_inj_M g2
          cases pure_inj_M g3
          exact ⟨rfl, rfl, rfl⟩
      · rw [if_neg hc, pure_bind] at h
        rw [ih _ _ h]
        simp only [List.mem_cons, exists_eq_or_imp]
        refine or_congr_right ?_
        constructor
        · exact fun h => .inr h
        · rintro (⟨h1, x, y, h2, _⟩ | h)
          · exact absurd ⟨h1, by rw [h2]; rfl⟩ hc
          · exact h
  have := key nulling.rules [] L h
  simpa using this

theorem fromBinarized_nulling {g : DefaultGrammar} (h : fromBinarized X c nulling = pure g) :
    nullingIntermediate g.symMaps nulling = pure g.forestInfo.nullingIntermediate := by
  unfold fromBinarized at h
  obtain ⟨⟨c1, maps⟩, _, h⟩ := bind_eq_pure h
  obtain ⟨_, _, h⟩ := bind_eq_pure h
  unfold fromProcessed fromProcessedWith at h
  obtain ⟨_, _, h⟩ := bind_eq_pure h
  obtain ⟨_, _, h⟩ := bind_eq_pure h
  obtain ⟨_, _, h⟩ := bind_eq_pure h
  obtain ⟨_, _, h⟩ := bind_eq_pure h
  obtain ⟨_, _, h⟩ := bind_eq_pure h
  obtain ⟨_, _, h⟩ := bind_eq_pure h
  obtain ⟨_, _, h⟩ := bind_eq_pure h
  obtain ⟨_, _, h⟩ := bind_eq_pure h
  obtain ⟨_, _, h⟩ := bind_eq_pure h
  obtain ⟨_, _, h⟩ := bind_eq_pure h
  obtain ⟨_, _, h⟩ := bind_eq_pure h
  obtain ⟨_, _, h⟩ := bind_eq_pure h
  obtain ⟨ni, hni, h⟩ := bind_eq_pure h
  cases pure_inj_M h
  exact hni

theorem nullingRule_mem {info : ForestInfo} {s x y : Nat} (h : info.nullingRule s = some (x, y)) : (s, x, y) ∈ info.nullingIntermediate := by
  unfold ForestInfo.nullingRule at h
  rw [Option.map_eq_some_iff] at h
  obtain ⟨⟨a, b⟩, h1, h2⟩ := h
  have h3 := List.find?_some h1
  simp only [decide_eq_true_eq] at h3
  have h4 := List.mem_of_find?_eq_some h1
  simp only at h2
  rw [List.mem_reverse] at h4
  rw [← h3, ← h2]
  exact h4

theorem nullingRule_isSome {info : ForestInfo} {s : Nat} {p : Nat × Nat} (h : (s, p) ∈ info.nullingIntermediate) :
    ∃ x y, info.nullingRule s = some (x, y) := by
  unfold ForestInfo.nullingRule
  have : (info.nullingIntermediate.reverse.find? fun r => r.1 = s).isSome := by
    rw [List.find?_isSome]
    exact ⟨(s, p), by simpa using h, by simp⟩
  obtain ⟨q, hq⟩ := Option.isSome_iff_exists.1 this
  rw [hq]
  exact ⟨q.2.1, q.2.2, rfl⟩

theorem emptyRules_made {ext : List Nat} {g : DefaultGrammar} (hk : EmptyKept U N c nulling g) (hg : fromBinarized X c nulling = pure g)
    (h1 : ∀ s ∈ ext, g.toInternal s = pure (some (newNumber ext s))) (h2 : ∀ s, s < c.numSyms → s ∉ ext → g.toInternal s = pure none) :
    EmptyRules (URules.rename (intNum ext) U) (N.rename (ext_int ext)) g.forestInfo := by
  have hni := fromBinarized_nulling hg
  have hmem := fun a b d => nullingIntermediate_mem hni a b d
  have hint : ∀ s x, s < c.numSyms → toInternal g.symMaps s = pure (some x) → x = intNum ext s := by
    intro s x hs hx
    have hx : g.toInternal s = pure (some x) := hx
    by_cases hm : s ∈ ext
    · rw [h1 s hm] at hx
      have := pure_inj_M hx
      rw [intNum_mem hm]
      exact (Option.some.inj this).symm
    · rw [h2 s hs hm] at hx
      have := pure_inj_M hx
      cases this
  have hsound : ∀ s x y, (s, x, y) ∈ g.forestInfo.nullingIntermediate → ∃ k A rhs j, (URules.rename (intNum ext) U)[k]? = some (A, rhs) ∧ 1 ≤ j ∧
      j + 1 < rhs.length ∧ rhs[j]? = some y ∧ s = (N.rename (ext_int ext)).name k (j + 1) ∧ x = (N.rename (ext_int ext)).pre k rhs j := by
    intro s x y hm
    obtain ⟨r, hr, ho, x0, y0, hrhs, e1, e2, e3⟩ := (hmem s x y).1 hm
    obtain ⟨k, A, rhs, j, y1, a1, a2, a3, a4, a5, a6⟩ := hk.rules.sound r hr ho (by rw [hrhs]; rfl)
    obtain ⟨s1, s2⟩ := hk.syms r hr
    rw [hrhs] at s2 a6
    simp only [List.cons.injEq, and_true] at a6
    have e1 := hint _ _ s1 e1
    have e2 := hint _ _ (s2 _ (by simp)) e2
    have e3 := hint _ _ (s2 _ (by simp)) e3
    refine ⟨k, _, _, j, URules.rename_some a1, a2, by simpa using a3, ?_, ?_, ?_⟩
    · rw [List.getElem?_map, a4, e3, a6.2]
      rfl
    · rw [e1, a5]
      rfl
    · rw [e2, a6.1, Names.rename_pre]
      rintro rfl
      simp at a3
  refine ⟨fun s x y h => hsound s x y (nullingRule_mem h), fun k A' rhs' j y' hk' hj hlt hy hnul => ?_⟩
  obtain ⟨A, rhs, b1, rfl, rfl⟩ := URules.of_rename hk'
  rw [List.getElem?_map, Option.map_eq_some_iff] at hy
  obtain ⟨y, hy, rfl⟩ := hy
  rw [List.length_map] at hlt
  obtain ⟨r, hr, ho, hl, hrhs⟩ := hk.rules.complete k A rhs j y b1 hj hlt hy (by
    intro s hs
    refine (UNullable.iff (ext_int ext)).1 (hnul _ ?_)
    rw [← List.map_take]
    exact List.mem_map_of_mem hs)
  -- the parser was made, so all symbols of the rule are known
  have hr2 : r.origin = none ∧ r.rhs.length = 2 := ⟨ho, by rw [hrhs]; rfl⟩
  have hex : ∃ a b d, (a, b, d) ∈ g.forestInfo.nullingIntermediate ∧ toInternal g.symMaps r.lhs = pure (some a) := by
    have key : ∀ (l : List CfgRule) (acc L : List (Nat × Nat × Nat)), r ∈ l → l.foldlM (fun acc rule =>
      if rule.origin = none ∧ rule.rhs.length = 2 then do
        let a ← toInternal g.symMaps rule.lhs
        let a ← unwrapM a
        let r0 ← indexM rule.rhs 0
        let b ← toInternal g.symMaps r0
        let b ← unwrapM b
        let r1 ← indexM rule.rhs 1
        let c ← toInternal g.symMaps r1
        let c ← unwrapM c
        pure (acc ++ [(a, b, c)])
      else pure acc) acc = (pure L : M (List (Nat × Nat × Nat))) →
        ∃ a b d, toInternal g.symMaps r.lhs = pure (some a) ∧ toInternal g.symMaps (N.pre k rhs j) = pure (some b) ∧ toInternal g.symMaps y = pure (some d) := by
      intro l
      induction l with
      | nil => intro _ _ h; cases h
      | cons q l ih =>
        intro acc L hmem h
        rw [List.foldlM_cons] at h
        obtain ⟨acc', h1, h⟩ := bind_eq_pure h
        rcases List.mem_cons.1 hmem with rfl | hmem
        · rw [if_pos hr2] at h1
          have un : ∀ {α : Type} {o : Option α} {v : α}, (unwrapM o : M α) = pure v → o = some v := by
            intro α o v h
            cases o with
            | none => cases h
            | some x => rw [pure_inj_M (show (pure x : M α) = pure v from h)]
          obtain ⟨o1, e1, h1⟩ := bind_eq_pure h1
          obtain ⟨a1, u1, h1⟩ := bind_eq_pure h1
          obtain ⟨r0, i0, h1⟩ := bind_eq_pure h1
          obtain ⟨o2, e2, h1⟩ := bind_eq_pure h1
          obtain ⟨a2, u2, h1⟩ := bind_eq_pure h1
          obtain ⟨r1, i1, h1⟩ := bind_eq_pure h1
          obtain ⟨o3, e3, h1⟩ := bind_eq_pure h1
          obtain ⟨a3, u3, h1⟩ := bind_eq_pure h1
          rw [hrhs] at i0 i1
          have := pure_inj_M (show (pure (N.pre k rhs j) : M Nat) = pure r0 from i0)
          subst this
          have := pure_inj_M (show (pure y : M Nat) = pure r1 from i1)
          subst this
          rw [un u1] at e1
          rw [un u2] at e2
          rw [un u3] at e3
          exact ⟨a1, a2, a3, e1, e2, e3⟩
        · exact ih acc' L hmem h
    obtain ⟨a, b, d, e1, e2, e3⟩ := key nulling.rules [] _ hr hni
    exact ⟨a, b, d, (hmem a b d).2 ⟨r, hr, ho, _, _, hrhs, e1, e2, e3⟩, e1⟩
  obtain ⟨a, b, d, hin, e1⟩ := hex
  have ea := hint _ _ (hk.syms r hr).1 e1
  rw [hl] at ea
  obtain ⟨x2, y2, h5⟩ := nullingRule_isSome hin
  rw [ea] at h5
  show g.forestInfo.nullingRule (intNum ext (N.name k (j + 1))) = _
  rw [h5]
  obtain ⟨k2, A2, rhs2, j2, c1, c2, c3, c4, c5, c6⟩ := hsound _ _ _ (nullingRule_mem h5)
  have p1 := (N.rename (ext_int ext)).parts_name k _ _ (j + 1) (URules.rename_some b1) (by omega) (by simpa using hlt)
  have p2 := (N.rename (ext_int ext)).parts_name k2 A2 rhs2 (j2 + 1) c1 (by omega) c3
  rw [← c5] at p2
  have : some (k, j + 1) = some (k2, j2 + 1) := p1.symm.trans p2
  simp only [Option.some.injEq, Prod.mk.injEq] at this
  obtain ⟨rfl, hj2⟩ := this
  have : j2 = j := by omega
  subst this
  rw [URules.rename_some b1] at c1
  simp only [Option.some.injEq, Prod.mk.injEq] at c1
  obtain ⟨_, rfl⟩ := c1
  rw [List.getElem?_map, hy] at c4
  simp only [Option.map_some, Option.some.injEq] at c4
  rw [← c4, c6]

theorem renRoot_eq {ext : List Nat} (h1 : w.root ∈ ext) (h2 : w.sof ∈ ext) (h3 : w.eof ∈ ext) (h4 : w.innerRoot ∈ ext) :
    renumberRoot ext w = renRoot (intNum ext) w := by
  unfold renumberRoot renRoot
  rw [intNum_mem h1, intNum_mem h2, intNum_mem h3, intNum_mem h4]

/-- The wrapping rules after renumbering. -/
theorem Wrapping.renumber {nullable : Prop} (hw : Wrapping (rulesOf c) w nullable) {ext : List Nat} {c' : Cfg} (hR : Renumbered ext c c')
    (hne : ∀ r ∈ c.rules, r.rhs ≠ []) : Wrapping (rulesOf c') (renRoot (intNum ext) w) nullable ∧
      renumberRoot ext w = renRoot (intNum ext) w ∧ ∀ g0, ⟨w.root, g0, some w.eof⟩ ∈ rulesOf c →
        ⟨(renRoot (intNum ext) w).root, intNum ext g0, some (renRoot (intNum ext) w).eof⟩ ∈ rulesOf c' := by
  have hsyms : ∀ r ∈ rulesOf c, r.lhs ∈ ext ∧ r.rhs0 ∈ ext ∧ ∀ s, r.rhs1 = some s → s ∈ ext := by
    intro r hr
    obtain ⟨q, hq, rfl⟩ := List.mem_map.1 hr
    obtain ⟨h1, h2⟩ := hR.covers q hq
    refine ⟨h1, ?_, fun s hs => h2 s (List.mem_of_getElem? hs)⟩
    cases hqr : q.rhs with
    | nil => exact absurd hqr (hne q hq)
    | cons s l => exact h2 _ (by simp [ruleOf, hqr])
  have hinj : ∀ {a b : Nat}, intNum ext a = intNum ext b → a = b := fun {a b} h => by rw [← ext_int ext a, h, ext_int]
  have hto : ∀ {A B : Nat} {C : Option Nat}, ⟨A, B, C⟩ ∈ rulesOf c → (⟨intNum ext A, intNum ext B, C.map (intNum ext)⟩ : Rule) ∈ rulesOf c' := by
    intro A B C h
    have h0 := hsyms _ h
    have := (hR.rulesOf_perm hne).mem_iff.2 (List.mem_map_of_mem h)
    have e : (⟨intNum ext A, intNum ext B, C.map (intNum ext)⟩ : Rule) = Rule.rename (newNumber ext) ⟨A, B, C⟩ := by
      unfold Rule.rename
      rw [intNum_mem h0.1, intNum_mem h0.2.1]
      cases C with
      | none => rfl
      | some s => simp only [Option.map_some, intNum_mem (h0.2.2 s rfl)]
    rw [e]
    exact this
  have hof : ∀ {r' : Rule}, r' ∈ rulesOf c' → ∃ A B C, ⟨A, B, C⟩ ∈ rulesOf c ∧ r' = ⟨intNum ext A, intNum ext B, C.map (intNum ext)⟩ := by
    intro r' h
    obtain ⟨⟨A, B, C⟩, hr, rfl⟩ := List.mem_map.1 ((hR.rulesOf_perm hne).mem_iff.1 h)
    have h0 := hsyms _ hr
    refine ⟨A, B, C, hr, ?_⟩
    unfold Rule.rename
    rw [intNum_mem h0.1, intNum_mem h0.2.1]
    cases C with
    | none => rfl
    | some s => simp only [Option.map_some, intNum_mem (h0.2.2 s rfl)]
  have hmapinj : ∀ {C D : Option Nat}, C.map (intNum ext) = D.map (intNum ext) → C = D := by
    intro C D h
    cases C <;> cases D <;> simp only [Option.map_none, Option.map_some, Option.some.injEq, reduceCtorEq] at h ⊢
    exact hinj h
  have hterm : ∀ {a : Nat}, Terminal (rulesOf c) a → Terminal (rulesOf c') (intNum ext a) := by
    intro a h r' hr' e
    obtain ⟨A, B, C, hr, rfl⟩ := hof hr'
    exact h _ hr (hinj e)
  obtain ⟨g0, ⟨h1, h2⟩, h3, h4, h5⟩ := hw.rules
  refine ⟨⟨⟨intNum ext g0, ⟨hto h1, ?_⟩, hto h3, ?_, ?_⟩, ?_, hterm hw.sof, hterm hw.eof⟩, ?_, ?_⟩
  · intro r' hr' e
    obtain ⟨A, B, C, hr, rfl⟩ := hof hr'
    have := h2 _ hr (hinj e)
    simp only [Rule.mk.injEq] at this
    obtain ⟨rfl, rfl, rfl⟩ := this
    rfl
  · refine Iff.trans ⟨fun h => ?_, fun h => hto (C := none) h⟩ h4
    obtain ⟨A, B, C, hr, e⟩ := hof h
    simp only [renRoot, Rule.mk.injEq] at e
    obtain ⟨e1, e2, e3⟩ := e
    cases hinj e1
    cases hinj e2
    cases C with
    | none => exact hr
    | some _ => cases e3
  · intro r' hr' e
    obtain ⟨A, B, C, hr, rfl⟩ := hof hr'
    have := h5 _ hr (hinj e)
    simp only [Rule.mk.injEq] at this
    rcases this with ⟨rfl, rfl, rfl⟩ | ⟨rfl, rfl, rfl⟩
    · exact .inl rfl
    · exact .inr rfl
  · intro g1 h e
    obtain ⟨A, B, C, hr, e'⟩ := hof h
    simp only [renRoot, Rule.mk.injEq] at e' e
    obtain ⟨e1, e2, e3⟩ := e'
    cases hinj e1
    have : some w.eof = C := hmapinj e3
    subst this
    exact hw.ne B hr (hinj (e2.symm.trans e))
  · exact renRoot_eq (hsyms _ h1).1 (hsyms _ h3).2.1 ((hsyms _ h1).2.2 _ rfl) ((hsyms _ h3).2.2 _ rfl)
  · exact fun g1 h => hto h

/-- The input in the numbers of the parser. -/
theorem parseSteps_tok (f : Nat → Nat) (sof : Nat) (toks : List Nat) (i : Nat) :
    inputOf (parseSteps sof (toks.map f)) (i + 1) = (tokInput toks i).map fun p => (f p.1, p.2) := by
  unfold inputOf tokInput
  rcases Nat.lt_or_ge i toks.length with hi | hi
  · have hl : i < (tokSteps 0 (toks.map f)).length := by simpa [tokSteps_length] using hi
    obtain ⟨t, h1, h2, _⟩ := tokSteps_getElem? 0 (toks.map f) i (List.getElem?_eq_getElem hl)
    rw [List.getElem?_map, List.getElem?_eq_getElem hi] at h1
    simp only [Option.map_some, Option.some.injEq] at h1
    simp only [parseSteps, List.getElem?_cons_succ, List.getElem?_eq_getElem hl, List.getElem?_eq_getElem hi, h2, h1, Nat.zero_add,
      List.map_cons, List.map_nil]
  · simp only [parseSteps, List.getElem?_cons_succ]
    rw [List.getElem?_eq_none (by simpa [tokSteps_length] using hi), List.getElem?_eq_none hi]
    rfl

/-- The parser and its tokens in the numbers of the parser. -/
structure InNumbers (U : URules) (N : Names U) (w : WrappedRoot) (g0 : Nat) (c : Cfg) (g : DefaultGrammar) (toks ext : List Nat) (c' : Cfg) (n : Nat) : Prop where
  bin : Binarizes (URules.rename (intNum ext) U) (N.rename (ext_int ext)) (renRoot (intNum ext) w) (intNum ext g0) c'
  prepared : Prepared c' n (renRoot (intNum ext) w) g
  acyclic : UnaryAcyclic (rulesOf c) → UnaryAcyclic (rulesOf c')
  wrap : Wrapping (rulesOf c') (renRoot (intNum ext) w) (UNullable U w.innerRoot)
  rule : ⟨(renRoot (intNum ext) w).root, intNum ext g0, some (renRoot (intNum ext) w).eof⟩ ∈ rulesOf c'
  sof : g.sofSym = intNum ext w.sof
  internals : Internals g toks (toks.map (intNum ext))
  terminals : ∀ t ∈ toks.map (intNum ext), t < n ∧ Terminal (rulesOf c') t
  numSyms : c'.numSyms ≤ c.numSyms
  known : ∀ s, Occurs c s → g.toInternal s = pure (some (intNum ext s))
  known' : ∀ s ∈ ext, g.toInternal s = pure (some (newNumber ext s))
  removed : ∀ s, s < c.numSyms → s ∉ ext → g.toInternal s = pure none
  only : ∀ s x, s < c.numSyms → g.toInternal s = pure (some x) → intNum ext s = x
  perm : c'.rules.Perm (c.rules.map (renRule (intNum ext)))

theorem ParserOf.numbered {g : DefaultGrammar} (h : ParserOf X U N w g0 c nulling g) (hk : EmptyKept U N c nulling g) {toks : List Nat}
    (ht : Tokens U c toks) : ∃ ext c' n, InNumbers U N w g0 c g toks ext c' n := by
  obtain ⟨c', n, ext, hR, hlt, hocc, hb, _⟩ := C46_prepared (nulling := nulling) h.crate h.ok
  obtain ⟨hB, hm, hrem⟩ := hb g h.made
  have hne : ∀ r ∈ c.rules, r.rhs ≠ [] := by
    rintro r hr h'; have := h.ok.len r hr; simp [h'] at this
  have hin : ∀ t ∈ toks, t ∈ ext := fun t h => hocc t (ht t h).2.2
  obtain ⟨hW, hroot, hrule⟩ := Wrapping.renumber h.wrap hR hne
  rw [hroot] at hB
  have hterm := ht.terminal h.bin
  have hord : ∀ t ∈ ext, Terminal (rulesOf c) t → newNumber ext t < n := by
    intro t h1 h2
    obtain ⟨depth, hP⟩ := hB.processed
    by_contra hge
    have hg' := (hP.gen _ (by rw [hR.numSyms]; exact newNumber_lt h1)).2 (by omega)
    obtain ⟨_, _, _, r, hr, e, _⟩ := (hR.generated h1).1 hg'
    exact h2 _ (List.mem_map_of_mem hr) e
  have hremoved : ∀ r ∈ c.rules, ∀ p, r.nullable = some p → p.1 ∈ ext := by
    intro r hr p hp
    by_contra hn
    exact (hk.removed r hr p hp).2 (hrem _ (hk.removed r hr p hp).1 hn)
  have hperm : c'.rules.Perm (c.rules.map (renRule (intNum ext))) := by
    have := hR.rules
    rwa [List.map_congr_left fun r hr => renRule_eq (hR.covers r hr) (hremoved r hr)] at this
  obtain ⟨root, g1, hReady⟩ := hB.ready0
  obtain ⟨depth, hP⟩ := hB.processed
  have hmapeq : toks.map (intNum ext) = toks.map (newNumber ext) := List.map_congr_left fun t h => intNum_mem (hin t h)
  have hT : ∀ t' ∈ toks.map (intNum ext), t' < n ∧ Terminal (rulesOf c') t' := by
    rw [hmapeq]
    intro t' ht'
    obtain ⟨t, h, rfl⟩ := List.mem_map.1 ht'
    exact ⟨hord t (hin t h) (hterm t h).2, (hR.terminal (hin t h)).2 (hterm t h).2⟩
  have hsof := hReady.sof
  have hnum : c'.numSyms ≤ c.numSyms := by
    rw [hR.numSyms]
    have hsub : ext ⊆ List.range c.numSyms := fun s hs => List.mem_range.2 (hlt s hs)
    have := (hR.nodup.subperm hsub).length_le
    simpa using this
  have hint : ∀ s x, s < c.numSyms → g.toInternal s = pure (some x) → intNum ext s = x := by
    intro s x hs hx
    by_cases hmem : s ∈ ext
    · rw [(hm s hmem).1] at hx
      rw [intNum_mem hmem]
      exact Option.some.inj (pure_inj_M hx)
    · rw [hrem s hs hmem] at hx
      cases pure_inj_M hx
  refine ⟨ext, c', n, h.bin.rename _ hperm, hB, hR.acyclic h.ok, hW, hrule _ h.rule, hsof, ?_, hT, hnum, ?_, fun s hs => (hm s hs).1, hrem, hint, hperm⟩
  · unfold Internals
    rw [hmapeq, List.forall₂_map_right_iff, List.forall₂_same]
    exact fun t h => (hm t (hin t h)).1
  · intro s hs
    rw [(hm s (hocc s hs)).1, intNum_mem (hocc s hs)]

/-- Everything about a parse of tokens of the user's grammar in the numbers of the parser. -/
structure Ours (U : URules) (N : Names U) (w : WrappedRoot) (g0 : Nat) (c : Cfg) (E : Env σ Nat) (toks ext : List Nat) (c' : Cfg) (n : Nat) : Prop where
  bin : Binarizes (URules.rename (intNum ext) U) (N.rename (ext_int ext)) (renRoot (intNum ext) w) (intNum ext g0) c'
  good : GoodParse E c' n (renRoot (intNum ext) w) (UNullable U w.innerRoot) (parseSteps E.g.sofSym (toks.map (intNum ext))) (intNum ext g0)
  sof : E.g.sofSym = intNum ext w.sof
  internals : Internals E.g toks (toks.map (intNum ext))
  empties : EmptyRules (URules.rename (intNum ext) U) (N.rename (ext_int ext)) E.g.forestInfo
  known : ∀ s, Occurs c s → E.g.toInternal s = pure (some (intNum ext s))
  only : ∀ s x, s < c.numSyms → E.g.toInternal s = pure (some x) → intNum ext s = x
  perm : c'.rules.Perm (c.rules.map (renRule (intNum ext)))

theorem InNumbers.plain {E : Env σ Nat} {toks ext : List Nat} {c' : Cfg} {n : Nat} (h : InNumbers U N w g0 c E.g toks ext c' n) (hleo : E.leo = false)
    (hr32 : c.rules.length < 2 ^ 32) (hs32 : c.numSyms ≤ 2 ^ 32) (hlen : toks.length + 1 < 2 ^ 64 - 1) :
    PlainParse E c' n (renRoot (intNum ext) w) (UNullable U w.innerRoot) (parseSteps E.g.sofSym (toks.map (intNum ext))) (intNum ext g0) := by
  obtain ⟨depth, hP⟩ := h.prepared.processed
  rw [h.sof]
  refine ⟨h.prepared, hleo, ?_, Nat.le_trans h.numSyms hs32, h.wrap, ?_, ?_, by simp [parseSteps], ?_, ?_, ?_, h.rule⟩
  · rw [h.perm.length_eq, List.length_map]
    exact hr32
  · exact parseSteps_tokens (Nat.lt_of_lt_of_le h.prepared.sof_lt hP.syms_le) fun t ht => Nat.lt_of_lt_of_le (h.terminals t ht).1 hP.syms_le
  · exact parseSteps_hints fun t ht => (h.terminals t ht).1
  · rw [parseSteps_length, List.length_map]
    exact hlen
  · exact fun _ => parseSteps_honest h.terminals
  · intro i
    cases i with
    | zero =>
      refine ⟨by simp [inputOf, parseSteps], fun t ht => ?_⟩
      simp only [inputOf, parseSteps, List.getElem?_cons_zero, List.mem_singleton] at ht
      subst ht
      exact h.wrap.sof
    | succ i =>
      rw [parseSteps_tok]
      unfold tokInput
      cases hti : toks[i]? with
      | none => simp
      | some t =>
        refine ⟨by simp, fun p hp => ?_⟩
        simp only [List.map_cons, List.map_nil, List.mem_singleton] at hp
        subst hp
        exact (h.terminals _ (List.mem_map_of_mem (List.mem_of_getElem? hti))).2

theorem InNumbers.ours {E : Env σ Nat} {toks ext : List Nat} {c' : Cfg} {n : Nat} (h : InNumbers U N w g0 c E.g toks ext c' n)
    (hp : ParserOf X U N w g0 c nulling E.g) (hk : EmptyKept U N c nulling E.g)
    (hg : GoodParse E c' n (renRoot (intNum ext) w) (UNullable U w.innerRoot) (parseSteps E.g.sofSym (toks.map (intNum ext))) (intNum ext g0)) :
    Ours U N w g0 c E toks ext c' n :=
  ⟨h.bin, hg, h.sof, h.internals, emptyRules_made hk hp.made h.known' h.removed, h.known, h.only, h.perm⟩

theorem UserParser.ours {E : Env σ Nat} (h : UserParser X U N w g0 c nulling E.g) (hk : EmptyKept U N c nulling E.g) (hleo : E.leo = false)
    (hr32 : c.rules.length < 2 ^ 32) (hs32 : c.numSyms ≤ 2 ^ 32) {toks : List Nat} (ht : Tokens U c toks)
    (hlen : toks.length + 1 < 2 ^ 64 - 1) : ∃ ext c' n, Ours U N w g0 c E toks ext c' n := by
  obtain ⟨ext, c', n, hN⟩ := h.numbered hk ht
  exact ⟨ext, c', n, hN.ours h.toParserOf hk ((hN.plain hleo hr32 hs32 hlen).good (hN.acyclic h.acyclic))⟩

variable {E : Env σ Nat} {toks ext : List Nat} {c' : Cfg} {n : Nat}

theorem Ours.inputOK (h : Ours U N w g0 c E toks ext c' n) (ht : Tokens U c toks) :
    InputOK (URules.rename (intNum ext) U) (N.rename (ext_int ext)) (inputOf (parseSteps E.g.sofSym (toks.map (intNum ext)))) := by
  intro i p hp
  cases i with
  | zero =>
    simp only [inputOf, parseSteps, List.getElem?_cons_zero, List.mem_singleton] at hp
    subst hp
    rw [h.sof]
    have hf := h.bin.fresh (intNum ext w.sof) (.inr (.inr (.inl rfl)))
    exact ⟨fun r hr => (hf.2 r hr).1, hf.1⟩
  | succ i =>
    rw [parseSteps_tok] at hp
    obtain ⟨⟨t, v⟩, h1, rfl⟩ := List.mem_map.1 hp
    have h2 := inputOK_tok (ht.user N) i _ h1
    refine ⟨(UTerminal.iff (ext_int ext)).2 h2.1, ?_⟩
    show N.parts (extNum ext (intNum ext t)) = none
    rw [ext_int]
    exact h2.2

/-- The trees of the whole input are the trees of the user's root behind the start marker. -/
theorem Ours.whole (h : Ours U N w g0 c E toks ext c' n) (hne : toks ≠ []) :
    ∃ d, ∀ t', TreeOf (rulesOf c') (inputOf (parseSteps E.g.sofSym (toks.map (intNum ext)))) t' (intNum ext g0) 0
        (parseSteps E.g.sofSym (toks.map (intNum ext))).length ↔ ∃ t, t' = .node d (.pair (.leaf (renRoot (intNum ext) w).sof 0) t) ∧
          TreeOf (rulesOf c') (inputOf (parseSteps E.g.sofSym (toks.map (intNum ext)))) t (intNum ext w.innerRoot) 1 (toks.length + 1) := by
  have hlen : (parseSteps E.g.sofSym (toks.map (intNum ext))).length = toks.length + 1 := by rw [parseSteps_length, List.length_map]
  have hpos : 0 < toks.length := by
    cases toks with
    | nil => exact absurd rfl hne
    | cons _ _ => simp
  obtain ⟨g1, ⟨w1, w2⟩, w3, w4, w5⟩ := h.good.wrapping.rules
  have := h.good.root_eq w1
  subst this
  obtain ⟨d, hd⟩ := List.getElem?_of_mem w3
  have hv : ∀ v, (intNum ext w.sof, v) ∈ inputOf (parseSteps E.g.sofSym (toks.map (intNum ext))) 0 ↔ v = 0 := by
    intro v
    rw [h.sof]
    simp [inputOf, parseSteps]
  refine ⟨d, fun t' => ⟨fun ht' => ?_, ?_⟩⟩
  · rcases h.good.tree_form ht' with ⟨d', v, u', rfl, h1⟩ | ⟨_, _, _, h1, _⟩
    · rw [hlen] at h1
      refine ⟨u', ?_, h1⟩
      cases ht' with
      | unary _ hf => cases hf
      | @binary d' A B C f g i m j hr hf hg =>
        have hv0 : v = 0 := by
          cases hf with
          | leaf hm => exact (hv v).1 hm
        subst hv0
        have hB : B = (renRoot (intNum ext) w).sof := by
          cases hf with
          | leaf hm => rfl
        subst hB
        have hC : C = (renRoot (intNum ext) w).innerRoot := by
          rcases w5 _ (List.mem_of_getElem? hr) rfl with e | e
          · simpa using e
          · simp at e
        subst hC
        congr 1
        unfold rulesOf at hr hd
        rw [List.getElem?_map, Option.map_eq_some_iff] at hr hd
        obtain ⟨q, hq, e1⟩ := hr
        obtain ⟨r, hr, e2⟩ := hd
        have hlen2 : ∀ x ∈ c'.rules, x.rhs.length = 1 ∨ x.rhs.length = 2 := by
          obtain ⟨depth, hP⟩ := h.good.prepared.processed
          exact hP.len
        have form : ∀ {x : CfgRule} {A B C : Nat}, x ∈ c'.rules → ruleOf x = ⟨A, B, some C⟩ → x.lhs = A ∧ x.rhs = [B, C] := by
          intro x A B C hx e
          unfold ruleOf at e
          simp only [Rule.mk.injEq] at e
          obtain ⟨rfl, e3, e4⟩ := e
          refine ⟨rfl, ?_⟩
          rcases hlen2 x hx with hl | hl
          · rw [List.getElem?_eq_none (by omega)] at e4
            cases e4
          · match hxr : x.rhs, hl with
            | [a, b], _ =>
              rw [hxr] at e3 e4
              simp at e3 e4
              rw [e3, e4]
        obtain ⟨a1, a2⟩ := form (List.mem_of_getElem? hq) e1
        obtain ⟨b1, b2⟩ := form (List.mem_of_getElem? hr) e2
        have hbare := h.bin.once q (List.mem_of_getElem? hq) r (List.mem_of_getElem? hr) a1 b1 (by rw [a2, b2])
        have hq' : (c'.rules.map bare)[d']? = some (bare q) := by rw [List.getElem?_map, hq]; rfl
        have hr' : (c'.rules.map bare)[d]? = some (bare q) := by rw [List.getElem?_map, hr, hbare]; rfl
        exact (List.getElem?_inj (List.getElem?_eq_some_iff.1 hq').1 h.bin.nodup).1 (hq'.trans hr'.symm)
    · rw [hlen] at h1
      omega
  · rintro ⟨t, rfl, t1⟩
    rw [hlen]
    exact .binary hd (.leaf ((hv 0).2 rfl)) t1

/-- The trees of the whole input, if the user's grammar has one. -/
theorem Ours.unique (h : Ours U N w g0 c E toks ext c' n) (ht : Tokens U c toks) (hp : N.parts w.innerRoot = none) (hI : Inner w g0 w.innerRoot)
    (hne : toks ≠ []) {u : UTree} (hu : ∀ u', UTreeOf U (tokInput toks) u' w.innerRoot 0 toks.length ↔ u' = u) :
    ∃ d t, flat (N.rename (ext_int ext)) E.g.forestInfo t = [u.rename (intNum ext)] ∧
      TreeOf (rulesOf c') (inputOf (parseSteps E.g.sofSym (toks.map (intNum ext)))) t (intNum ext w.innerRoot) 1 (toks.length + 1) ∧
      ∀ t', TreeOf (rulesOf c') (inputOf (parseSteps E.g.sofSym (toks.map (intNum ext)))) t' (intNum ext g0) 0
        (parseSteps E.g.sofSym (toks.map (intNum ext))).length ↔ t' = .node d (.pair (.leaf (renRoot (intNum ext) w).sof 0) t) := by
  obtain ⟨f1, f2, f3, f4⟩ := built_forestInfo h.good.prepared
  have hin := h.inputOK ht
  have hin' := fun i p hp => (hin i p hp).2
  have hinj : ∀ {a b : Nat}, intNum ext a = intNum ext b → a = b := fun {a b} h => by rw [← ext_int ext a, h, ext_int]
  have hpos : 0 < toks.length := by
    cases toks with
    | nil => exact absurd rfl hne
    | cons _ _ => simp
  have hp' : (N.rename (ext_int ext)).parts (intNum ext w.innerRoot) = none := by
    show N.parts (extNum ext (intNum ext w.innerRoot)) = none
    rw [ext_int]
    exact hp
  have hI' : Inner (renRoot (intNum ext) w) (intNum ext g0) (intNum ext w.innerRoot) := ⟨fun e => hI.1 (hinj e), fun e => hI.2 (hinj e)⟩
  have h0 : UTreeOf (URules.rename (intNum ext) U) (inputOf (parseSteps E.g.sofSym (toks.map (intNum ext)))) (u.rename (intNum ext)) (intNum ext w.innerRoot)
      1 (toks.length + 1) := by
    have := ((hu u).2 rfl).rename (f := intNum ext) (inp' := inputOf (parseSteps E.g.sofSym (toks.map (intNum ext)))) (by
      intro i a v hm
      rw [parseSteps_tok]
      exact List.mem_map_of_mem (f := fun p => (intNum ext p.1, p.2)) hm)
    exact this
  obtain ⟨t, t1, t2⟩ := h.bin.complete_tree f1 f2 hin h0 (by omega)
  -- trees of the root are the same
  have huniq : ∀ t', TreeOf (rulesOf c') (inputOf (parseSteps E.g.sofSym (toks.map (intNum ext)))) t' (intNum ext w.innerRoot) 1 (toks.length + 1) → t' = t := by
    intro t' ht'
    obtain ⟨_, u', h1, h2⟩ := (h.bin.flat_sound f1 f2 hin' t' ht' hI').user hp'
    obtain ⟨u0, j, e1, e2, h3⟩ := h2.reflect (ext_int ext) (inp := tokInput toks) (by
      intro i a' v hm
      rw [parseSteps_tok] at hm
      obtain ⟨⟨a, v'⟩, h4, h5⟩ := List.mem_map.1 hm
      simp only [Prod.mk.injEq] at h5
      obtain ⟨rfl, rfl⟩ := h5
      exact ⟨a, rfl, h4⟩) w.innerRoot 0 rfl rfl
    have : j = toks.length := by omega
    subst this
    have := (hu u0).1 h3
    subst this
    exact h.bin.flat_inj f1 f2 hin' t' ht' hI' t t1 (by rw [h1, t2, e1])
  obtain ⟨d, hd⟩ := h.whole hne
  refine ⟨d, t, t2, t1, fun t' => (hd t').trans ⟨?_, ?_⟩⟩
  · rintro ⟨t0, rfl, h0⟩
    rw [huniq t0 h0]
  · rintro rfl
    exact ⟨t, rfl, t1⟩

/-- From a session to a call of `parse`. -/
theorem Ours.parse (h : Ours U N w g0 c E toks ext c' n) {f : σ} {r : Rec σ Nat × Bool} {x : Nat}
    (h1 : (Rec.new E f >>= Rec.session E (parseSteps E.g.sofSym (toks.map (intNum ext)))) = pure r) (h2 : r.2 = true)
    (h3 : Rec.finishedNode E r.1 = pure (some x)) : ∃ s0, Rec.new E f = pure s0 ∧ Rec.parse E s0 toks = pure (r.1, .ok true) := by
  obtain ⟨s0, h4, h5⟩ := bind_eq_pure h1
  obtain ⟨m, hm, _, hmt, _⟩ := sessionCount_of_session _ _ h5
  have hmm := hmt.1 h2
  rw [parseSteps_length] at hmm
  obtain ⟨p1, _⟩ := parse_spec h.internals hm
  refine ⟨s0, h4, ?_⟩
  rw [p1 hmm]
  unfold Rec.isFinished
  rw [h3]
  rfl

end Gearley.Props
