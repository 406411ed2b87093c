import Verif.Proofs.Renumber
import Verif.Props.Recognition

/-!
# C46: from the binarized grammar to the parser
-/

namespace Gearley.Props
open Gearley.Spec Build
variable {σ ν : Type} {X : CfgCrate} {c nulling : Cfg} {w : WrappedRoot}

/-- The symbols in the rules for the empty string that have two symbols and no origin are known to the mapping (otherwise
`populate_nulling` panics, lib.rs:599-601). -/
def NullingKept (ext : List Nat) (nulling : Cfg) : Prop :=
  ∀ r ∈ nulling.rules, r.origin = none → r.rhs.length = 2 → r.lhs ∈ ext ∧ ∀ s ∈ r.rhs, s ∈ ext

/-- A symbol that occurs in a rule. -/
def Occurs (c : Cfg) (s : Nat) : Prop := ∃ r ∈ c.rules, r.lhs = s ∨ s ∈ r.rhs

/-- The mapping of `remap_symbols`, for known symbols. -/
theorem toInternal_mapping {ext : List Nat} {n s : Nat} (hs : s ∈ ext) (hn : s < n) :
    Build.toInternal (mappingOf ext n) s = pure (some (newNumber ext s)) := by
  have hne : (mappingOf ext n).toInternal ≠ [] := by
    intro h
    have := congrArg List.length h
    simp [mappingOf] at this
    omega
  unfold Build.toInternal
  rw [if_neg hne]
  refine indexM_eq ?_
  simp [mappingOf, hn, hs]

/-- The mapping of `remap_symbols`, for symbols that were removed. -/
theorem toInternal_removed {ext : List Nat} {n s : Nat} (hs : s ∉ ext) (hn : s < n) :
    Build.toInternal (mappingOf ext n) s = pure none := by
  have hne : (mappingOf ext n).toInternal ≠ [] := by
    intro h
    have := congrArg List.length h
    simp [mappingOf] at this
    omega
  unfold Build.toInternal
  rw [if_neg hne]
  refine indexM_eq ?_
  simp [mappingOf, hn, hs]

theorem nulling_returns {ext : List Nat} {n : Nat} (hlt : ∀ s ∈ ext, s < n) (h : NullingKept ext nulling) :
    ∃ ni, nullingIntermediate (mappingOf ext n) nulling = pure ni := by
  unfold nullingIntermediate
  have key : ∀ (l : List CfgRule) acc, (∀ r ∈ l, r ∈ nulling.rules) → ∃ ni, l.foldlM (fun acc rule =>
    if rule.origin = none ∧ rule.rhs.length = 2 then do
      let a ← toInternal (mappingOf ext n) rule.lhs
      let a ← unwrapM a
      let r0 ← indexM rule.rhs 0
      let b ← toInternal (mappingOf ext n) r0
      let b ← unwrapM b
      let r1 ← indexM rule.rhs 1
      let c ← toInternal (mappingOf ext n) r1
      let c ← unwrapM c
      pure (acc ++ [(a, b, c)])
    else pure acc) acc = (pure ni : M (List (Nat × Nat × Nat))) := by
    intro l
    induction l with
    | nil => exact fun acc _ => ⟨acc, rfl⟩
    | cons r l ih =>
      intro acc hl
      rw [List.foldlM_cons]
      have hr := hl r (by simp)
      split
      · next hc =>
        obtain ⟨h1, h2⟩ := h r hr hc.1 hc.2
        have i0 : 0 < r.rhs.length := by omega
        have i1 : 1 < r.rhs.length := by omega
        rw [toInternal_mapping h1 (hlt _ h1), indexM_lt i0, indexM_lt i1]
        simp only [pure_bind]
        rw [toInternal_mapping (h2 _ (List.getElem_mem i0)) (hlt _ (h2 _ (List.getElem_mem i0))),
          toInternal_mapping (h2 _ (List.getElem_mem i1)) (hlt _ (h2 _ (List.getElem_mem i1)))]
        exact ih _ fun q hq => hl q (by simp [hq])
      · rw [pure_bind]
        exact ih acc fun q hq => hl q (by simp [hq])
  exact key nulling.rules [] fun _ h => h

/-- The tables for tracing are built whenever the real ones are. -/
theorem traceTables_returns {c : Cfg} {maps : Mapping} {first follow : List (Nat × List Nat)} {g : DefaultGrammar}
    (h : fromProcessed c maps nulling first follow = pure g) : traceTables c = pure () := by
  unfold fromProcessed fromProcessedWith at h
  obtain ⟨gensyms, h1, h⟩ := bind_eq_pure h
  obtain ⟨syms, h2, h⟩ := bind_eq_pure h
  obtain ⟨_, _, h⟩ := bind_eq_pure h
  obtain ⟨_, _, h⟩ := bind_eq_pure h
  obtain ⟨_, _, h⟩ := bind_eq_pure h
  obtain ⟨_, _, h⟩ := bind_eq_pure h
  obtain ⟨_, _, h⟩ := bind_eq_pure h
  obtain ⟨byRhs0, h3, h⟩ := bind_eq_pure h
  obtain ⟨pm, h4, h⟩ := bind_eq_pure h
  unfold traceTables
  rw [h1, pure_bind, h2, pure_bind, h3, pure_bind, h4, pure_bind]

/-- C46. `remap_symbols`, `sort_rules_by_lhs` and `from_processed_grammars` turn every binarized grammar into a grammar as
assumed by all other properties: the symbols and rules are those of the binarized grammar with new numbers, the numbers and
the rules are ordered as required, the tables are built without panic, and the mapping translates the old numbers. The grammar may have cycles. -/
theorem C46_prepared (hX : CrateOK X) (hc : BinarizedOK c w) :
    ∃ c' n ext, Renumbered ext c c' ∧ (∀ s ∈ ext, s < c.numSyms) ∧ (∀ s, Occurs c s → s ∈ ext) ∧
      (∀ g, fromBinarized X c nulling = pure g → Prepared c' n (renumberRoot ext w) g ∧
        (∀ s ∈ ext, g.toInternal s = pure (some (newNumber ext s)) ∧ g.toExternal (newNumber ext s) = pure s) ∧
        ∀ s, s < c.numSyms → s ∉ ext → g.toInternal s = pure none) ∧
      (NullingKept ext nulling → ∃ g, fromBinarized X c nulling = pure g) := by
  obtain ⟨ext, h1, h2⟩ := remapSymbols_ok hX hc
  obtain ⟨depth, hP⟩ := remap_processed hX hc h2
  have hR := h2.renumbered hX
  have hocc : ∀ s, Occurs c s → s ∈ ext := by
    rintro s ⟨r, hr, rfl | hs⟩
    · exact (h2.covers r hr).1
    · exact (h2.covers r hr).2 s hs
  have hwr : renumberRoot ext w ∈ (sortRulesByLhs X (renumber ext c)).wrappedRoots := by
    show _ ∈ c.wrappedRoots.map (renumberRoot ext)
    rw [hc.root]; simp
  refine ⟨sortRulesByLhs X (renumber ext c), ordinaries ext c, ext, hR, h2.lt, hocc, ?_, ?_⟩
  · intro g hg
    unfold fromBinarized at hg
    rw [h1, pure_bind] at hg
    obtain ⟨_, _, hg⟩ := bind_eq_pure hg
    have hg : fromProcessed (sortRulesByLhs X (renumber ext c)) (mappingOf ext c.numSyms) nulling
      (X.firstSets (sortRulesByLhs X (renumber ext c))) (X.followSets (sortRulesByLhs X (renumber ext c))) = pure g := hg
    obtain ⟨root, hB⟩ := built_ok hP hg
    have hsle := hP.syms_le
    obtain ⟨rs, hrs, hrm⟩ := hc.sofUsed
    have hsof : w.sof ∈ ext := (h2.covers rs hrs).2 _ hrm
    have hne : ext ≠ [] := by rintro h; rw [h] at hsof; simp at hsof
    refine ⟨⟨⟨depth, hP⟩, ⟨_, _, _, _, hg, ?_, ?_⟩, ?_, ?_⟩, ?_, ?_⟩
    · exact fun C t u hC ht => hX.first _ C t u (by omega) (by omega)
    · exact fun A t α β hA ht => hX.follow _ _ hwr A t α β (by omega) (by omega)
    · exact (h2.new_lt hsof).2 (BinarizedOK.notGen hc.sofTerm)
    · refine (hR.terminal hsof).2 fun r hr => ?_
      obtain ⟨q, hq, rfl⟩ := List.mem_map.1 hr
      exact hc.sofTerm q hq
    · intro s hs
      constructor
      · unfold DefaultGrammar.toInternal
        rw [hB.maps]
        exact toInternal_mapping hs (h2.lt s hs)
      · unfold DefaultGrammar.toExternal
        rw [hB.maps]
        show (if ext = [] then _ else indexM ext _) = _
        rw [if_neg hne]
        exact indexM_eq (newNumber_get hs)
    · intro s hs hns
      unfold DefaultGrammar.toInternal
      rw [hB.maps]
      exact toInternal_removed hns hs
  · intro hk
    obtain ⟨g, root, hg, _⟩ := fromProcessed_ok hP (nulling := nulling) (maps := mappingOf ext c.numSyms)
      (first := X.firstSets (sortRulesByLhs X (renumber ext c))) (follow := X.followSets (sortRulesByLhs X (renumber ext c)))
      (nulling_returns h2.lt hk)
    refine ⟨g, ?_⟩
    unfold fromBinarized
    rw [h1, pure_bind]
    show (traceTables _ >>= fun _ => fromProcessed _ _ _ _ _) = _
    rw [traceTables_returns hg, pure_bind]
    exact hg

theorem _root_.Gearley.Spec.Renumbered.acyclic {ext : List Nat} {c' : Cfg} (hR : Renumbered ext c c') (hc : BinarizedOK c w) (ha : UnaryAcyclic (rulesOf c)) :
    UnaryAcyclic (rulesOf c') := by
  obtain ⟨rank, hrank⟩ := ha
  refine ⟨fun i => rank (oldNumber ext i), fun r' hr' hn => ?_⟩
  have hne : ∀ r ∈ c.rules, r.rhs ≠ [] := by
    rintro r hr h; have := hc.len r hr; simp [h] at this
  obtain ⟨r, hr, rfl⟩ := List.mem_map.1 ((hR.rulesOf_perm hne).mem_iff.1 hr')
  have hcov : r.lhs ∈ ext ∧ r.rhs0 ∈ ext := by
    obtain ⟨q, hq, rfl⟩ := List.mem_map.1 hr
    refine ⟨(hR.covers q hq).1, ?_⟩
    cases hqr : q.rhs with
    | nil => exact absurd hqr (hne q hq)
    | cons s l => exact (hR.covers q hq).2 _ (by simp [ruleOf, hqr])
  show rank (oldNumber ext (newNumber ext r.lhs)) < rank (oldNumber ext (newNumber ext r.rhs0))
  rw [old_new hcov.1, old_new hcov.2]
  exact hrank r hr (by simpa [Rule.rename] using hn)

/-- C46, for grammars without cycles. -/
theorem C46_built (hX : CrateOK X) (hc : BinarizedOK c w) (ha : UnaryAcyclic (rulesOf c)) :
    ∃ c' n ext, Renumbered ext c c' ∧ (∀ s ∈ ext, s < c.numSyms) ∧ (∀ s, Occurs c s → s ∈ ext) ∧
      (∀ g, fromBinarized X c nulling = pure g → Built c' n (renumberRoot ext w) g ∧
        (∀ s ∈ ext, g.toInternal s = pure (some (newNumber ext s)) ∧ g.toExternal (newNumber ext s) = pure s) ∧
        ∀ s, s < c.numSyms → s ∉ ext → g.toInternal s = pure none) ∧
      (NullingKept ext nulling → ∃ g, fromBinarized X c nulling = pure g) := by
  obtain ⟨c', n, ext, hR, h1, h2, h3, h4⟩ := C46_prepared (nulling := nulling) hX hc
  exact ⟨c', n, ext, hR, h1, h2, fun g hg => ⟨⟨(h3 g hg).1, hR.acyclic hc ha⟩, (h3 g hg).2⟩, h4⟩

/-- The parser made by `from_grammar`, with its own numbers of the symbols. -/
theorem parser_setup0 (hX : CrateOK X) (hc : BinarizedOK c w) {g : DefaultGrammar}
    (hg : fromBinarized X c nulling = pure g) {nullable : Prop} (hw : Wrapping (rulesOf c) w nullable) :
    ∃ c' n w' int, Prepared c' n w' g ∧ (UnaryAcyclic (rulesOf c) → UnaryAcyclic (rulesOf c')) ∧ (∀ t, Occurs c t → g.toInternal t = pure (some (int t))) ∧
      (∀ t, Occurs c t → Terminal (rulesOf c) t → int t < n ∧ Terminal (rulesOf c') (int t)) ∧
      ∀ toks : List Nat, (∀ t ∈ toks, Occurs c t) → (Derives (rulesOf c') w'.root (w'.sof :: toks.map int ++ [w'.eof]) ↔
        (toks = [] ∧ nullable) ∨ Derives (rulesOf c) w.innerRoot toks) := by
  obtain ⟨c', n, ext, hR, hlt, hocc, hb, _⟩ := C46_prepared (nulling := nulling) hX hc
  obtain ⟨hB, hm, _⟩ := hb g hg
  have hne : ∀ r ∈ c.rules, r.rhs ≠ [] := by
    rintro r hr h; have := hc.len r hr; simp [h] at this
  obtain ⟨g0, ⟨hw1, _⟩, hw2, _⟩ := hw.rules
  have hsyms : ∀ r ∈ rulesOf c, r.lhs ∈ ext ∧ r.rhs0 ∈ ext ∧ ∀ s, r.rhs1 = some s → s ∈ ext := by
    intro r hr
    obtain ⟨q, hq, rfl⟩ := List.mem_map.1 hr
    obtain ⟨h1, h2⟩ := hR.covers q hq
    refine ⟨h1, ?_, fun s hs => h2 s (List.mem_of_getElem? hs)⟩
    cases hqr : q.rhs with
    | nil => exact absurd hqr (hne q hq)
    | cons s l => exact h2 _ (by simp [ruleOf, hqr])
  have hroot := (hsyms _ hw1).1
  have heof := (hsyms _ hw1).2.2 _ rfl
  have hsof := (hsyms _ hw2).2.1
  have hord : ∀ t ∈ ext, Terminal (rulesOf c) t → newNumber ext t < n := by
    intro t h1 h2
    obtain ⟨depth, hP⟩ := hB.processed
    by_contra hge
    have hg' := (hP.gen _ (by rw [hR.numSyms]; exact newNumber_lt h1)).2 (by omega)
    obtain ⟨_, _, _, r, hr, e, _⟩ := (hR.generated h1).1 hg'
    exact h2 _ (List.mem_map_of_mem hr) e
  refine ⟨c', n, renumberRoot ext w, newNumber ext, hB, hR.acyclic hc, fun t h => (hm t (hocc t h)).1,
    fun t h h' => ⟨hord t (hocc t h) h', (hR.terminal (hocc t h)).2 h'⟩, fun toks ht => ?_⟩
  rw [← wrapping_language hw toks, ← hR.derives hne hroot (u := w.sof :: toks ++ [w.eof]) (by
    intro s hs
    simp only [List.cons_append, List.mem_cons, List.mem_append, List.not_mem_nil, or_false] at hs
    rcases hs with rfl | hs | rfl
    · exact hsof
    · exact hocc s (ht s hs)
    · exact heof)]
  simp [renumberRoot]

theorem parser_setup (hX : CrateOK X) (hc : BinarizedOK c w) (ha : UnaryAcyclic (rulesOf c)) {g : DefaultGrammar}
    (hg : fromBinarized X c nulling = pure g) {nullable : Prop} (hw : Wrapping (rulesOf c) w nullable) :
    ∃ c' n w' int, Built c' n w' g ∧ (∀ t, Occurs c t → g.toInternal t = pure (some (int t))) ∧
      (∀ t, Occurs c t → Terminal (rulesOf c) t → int t < n ∧ Terminal (rulesOf c') (int t)) ∧
      ∀ toks : List Nat, (∀ t ∈ toks, Occurs c t) → (Derives (rulesOf c') w'.root (w'.sof :: toks.map int ++ [w'.eof]) ↔
        (toks = [] ∧ nullable) ∨ Derives (rulesOf c) w.innerRoot toks) := by
  obtain ⟨c', n, w', int, h1, h2, h3⟩ := parser_setup0 hX hc hg hw
  exact ⟨c', n, w', int, ⟨h1, h2 ha⟩, h3⟩

theorem internals_map {g : DefaultGrammar} {int : Nat → Nat} {toks : List Nat} (h : ∀ t ∈ toks, g.toInternal t = pure (some (int t))) :
    Internals g toks (toks.map int) := by
  unfold Internals
  rw [List.forall₂_map_right_iff, List.forall₂_same]
  exact h

/-- C46. The parser made by `from_grammar` from a wrapped and binarized grammar accepts exactly the language of that
grammar. Tokens, root and rules are those before renumbering. -/
theorem C46_language (hX : CrateOK X) (hc : BinarizedOK c w) (ha : UnaryAcyclic (rulesOf c)) {E : Env σ ν} {f : σ}
    (hg : fromBinarized X c nulling = pure E.g) (hleo : E.leo = false) (hF : ∀ dots syms, SafeStart E.F f dots syms)
    {nullable : Prop} (hw : Wrapping (rulesOf c) w nullable) {toks : List Nat}
    (ht : ∀ t ∈ toks, Occurs c t ∧ Terminal (rulesOf c) t) (hlen : toks.length + 1 < 2 ^ 64 - 1) :
    ∃ s0 s res, Rec.new E f = pure s0 ∧ Rec.parse E s0 toks = pure (s, res) ∧
      (res = .ok true ↔ (toks = [] ∧ nullable) ∨ Derives (rulesOf c) w.innerRoot toks) := by
  obtain ⟨c', n, w', int, hB, hi, hterm, hd⟩ := parser_setup hX hc ha hg hw
  obtain ⟨s0, s, res, h1, h2, h3⟩ := C01_parse_language hB hleo (hF _ _) (internals_map fun t h => hi t (ht t h).1)
    (by
      intro t' ht'
      obtain ⟨t, h, rfl⟩ := List.mem_map.1 ht'
      exact hterm t (ht t h).1 (ht t h).2) (by simpa using hlen)
  exact ⟨s0, s, res, h1, h2, h3.trans (hd toks fun t h => (ht t h).1)⟩

/-- C46. `parse` panics if the first token is a symbol that was removed, as soon as the start marker has been read. -/
theorem C46_unknown_token {E : Env σ ν} {s0 s1 : Rec σ ν} {t : Nat} (h : E.g.toInternal t = pure none)
    (hs : Rec.readSof E (Rec.completeAll E) s0 = pure (s1, true)) (rest : List Nat) : ∃ p, Rec.parse E s0 (t :: rest) = panicM p := by
  have hp : ∃ p, Rec.internal E t = panicM p := by
    unfold Rec.internal
    rw [h, pure_bind]
    exact ⟨_, rfl⟩
  obtain ⟨p, hp⟩ := hp
  unfold Rec.parse Rec.parseWith
  rw [hs, pure_bind]
  simp only [if_true]
  unfold Rec.parseLoop
  cases rest with
  | nil =>
    refine ⟨p, ?_⟩
    simp only [pure_bind]
    rw [hp]; rfl
  | cons t2 rest =>
    have h2 : (∃ x, Rec.internal E t2 = pure x) ∨ ∃ q, Rec.internal E t2 = panicM q := by
      unfold Rec.internal DefaultGrammar.toInternal Build.toInternal
      split
      · exact .inl ⟨_, rfl⟩
      · unfold indexM
        split
        · next o _ =>
          cases o with
          | none => exact .inr ⟨_, rfl⟩
          | some x => exact .inl ⟨_, rfl⟩
        · exact .inr ⟨_, rfl⟩
    rcases h2 with ⟨x, h2⟩ | ⟨q, h2⟩
    · refine ⟨p, ?_⟩
      simp only [h2, pure_bind]
      rw [hp]; rfl
    · refine ⟨q, ?_⟩
      simp only [h2]; rfl

/-! ### The assumptions can be met -/

/-- Insertion from the end, as in the insertion sort of std for short slices. The list is reversed. -/
def insertRev (cmp : Nat → Nat → M Ordering) (x : Nat) : List Nat → M (List Nat)
  | [] => pure [x]
  | y :: l => do
    if (← cmp y x) = .gt then do
      let l' ← insertRev cmp x l
      pure (y :: l')
    else pure (x :: y :: l)

/-- A crate that satisfies the contract: insertion sort, symbols that do not occur are removed, largest FIRST and FOLLOW
sets. -/
def plainCrate : CfgCrate where
  reorder cmp n := do
    let l ← (List.range n).foldlM (fun l x => insertRev cmp x l) []
    pure l.reverse
  used c s := c.rules.any fun r => r.lhs == s || r.rhs.contains s
  sortRules l := sortByKey (·.lhs) l
  firstSets c := (List.range c.numSyms).map fun s => (s, List.range c.numSyms)
  followSets c := (List.range c.numSyms).map fun s => (s, List.range c.numSyms)

theorem insertRev_ok {cmp : Nat → Nat → M Ordering} {n : Nat} (hret : ∀ a b, a < n → b < n → ∃ o, cmp a b = pure o)
    (hanti : ∀ a b, a < n → b < n → a ≠ b → (cmp a b = pure .lt ↔ cmp b a = pure .gt)) {x : Nat} (hx : x < n) :
    ∀ {l : List Nat}, (∀ y ∈ l, y < x) → l.IsChain (fun a b => cmp b a ≠ pure .gt) → ∃ l', insertRev cmp x l = pure l' ∧
      l'.Perm (x :: l) ∧ l'.IsChain (fun a b => cmp b a ≠ pure .gt) ∧ (l'.head? = some x ∨ l'.head? = l.head?) := by
  intro l
  induction l with
  | nil => exact fun _ _ => ⟨[x], rfl, .refl _, .singleton _, .inl rfl⟩
  | cons y l ih =>
    intro hlt hch
    have hy := hlt y (by simp)
    obtain ⟨o, ho⟩ := hret y x (by omega) hx
    unfold insertRev
    rw [ho, pure_bind]
    by_cases hgt : o = .gt
    · obtain ⟨l', h1, h2, h3, h4⟩ := ih (fun z hz => hlt z (by simp [hz])) hch.tail
      simp only [hgt, if_true]
      rw [h1, pure_bind]
      refine ⟨_, rfl, (List.Perm.cons y h2).trans (.swap _ _ _), ?_, .inr rfl⟩
      cases l' with
      | nil => exact .singleton _
      | cons z l' =>
        refine .cons_cons ?_ h3
        rcases h4 with h4 | h4
        · cases h4
          rw [(hanti x y hx (by omega) (by omega)).2 (by rw [ho, hgt])]
          exact fun h => absurd (pure_inj_M h) (by decide)
        · cases l with
          | nil => cases h4
          | cons u l =>
            cases h4
            cases hch with | cons_cons h _ => exact h
    · simp only [hgt, if_false]
      refine ⟨_, rfl, .refl _, .cons_cons ?_ hch, .inl rfl⟩
      rw [ho]
      exact fun h => hgt (pure_inj_M h)

theorem sortByKey_ok {α : Type} (k : α → Nat) (l : List α) : (sortByKey k l).Perm l ∧ (sortByKey k l).Pairwise fun a b => k a ≤ k b := by
  have ins : ∀ x (l : List α), (insertByKey k x l).Perm (x :: l) ∧ ((l.Pairwise fun a b => k a ≤ k b) →
      (insertByKey k x l).Pairwise fun a b => k a ≤ k b) := by
    intro x l
    induction l with
    | nil => exact ⟨.refl _, fun _ => by simp [insertByKey]⟩
    | cons y l ih =>
      unfold insertByKey
      split
      · next h =>
        refine ⟨.refl _, fun hp => List.pairwise_cons.2 ⟨fun z hz => ?_, hp⟩⟩
        rw [List.pairwise_cons] at hp
        rcases List.mem_cons.1 hz with rfl | hz
        · exact h
        · exact h.trans (hp.1 z hz)
      · next h =>
        refine ⟨(List.Perm.cons y ih.1).trans (.swap _ _ _), fun hp => ?_⟩
        rw [List.pairwise_cons] at hp
        refine List.pairwise_cons.2 ⟨fun z hz => ?_, ih.2 hp.2⟩
        rcases List.mem_cons.1 (ih.1.mem_iff.1 hz) with rfl | hz
        · omega
        · exact hp.1 z hz
  induction l with
  | nil => exact ⟨.refl _, .nil⟩
  | cons x l ih => exact ⟨(ins x _).1.trans (ih.1.cons x), (ins x _).2 ih.2⟩

theorem plainCrate_ok : CrateOK plainCrate where
  reorder cmp n hret hanti := by
    have key : ∀ k, k ≤ n → ∃ l, (List.range k).foldlM (fun l x => insertRev cmp x l) [] = (pure l : M (List Nat)) ∧
        l.Perm (List.range k) ∧ l.IsChain (fun a b => cmp b a ≠ pure .gt) := by
      intro k
      induction k with
      | zero => exact fun _ => ⟨[], rfl, .refl _, .nil⟩
      | succ k ih =>
        intro hk
        obtain ⟨l, h1, h2, h3⟩ := ih (by omega)
        obtain ⟨l', h4, h5, h6, _⟩ := insertRev_ok hret hanti (x := k) (by omega) (l := l)
          (fun y hy => List.mem_range.1 (h2.mem_iff.1 hy)) h3
        refine ⟨l', ?_, ?_, h6⟩
        · rw [List.range_succ, List.foldlM_append, h1, pure_bind, List.foldlM_cons, h4]
          rfl
        · rw [List.range_succ]
          exact (h5.trans (h2.cons k)).trans (List.perm_append_singleton _ _).symm
    obtain ⟨l, h1, h2, h3⟩ := key n (Nat.le_refl _)
    refine ⟨l.reverse, ?_, (List.reverse_perm _).trans h2, ?_⟩
    · show (_ >>= _) = _
      rw [h1, pure_bind]
    · intro i a b ha hb
      have hc : l.reverse.IsChain (fun a b => cmp a b ≠ pure .gt) := List.isChain_reverse.2 h3
      obtain ⟨hi, rfl⟩ := List.getElem?_eq_some_iff.1 ha
      obtain ⟨hj, rfl⟩ := List.getElem?_eq_some_iff.1 hb
      exact List.isChain_iff_getElem.1 hc i hj
  used c r hr := by
    refine ⟨List.any_eq_true.2 ⟨r, hr, by simp⟩, fun s hs => List.any_eq_true.2 ⟨r, hr, by simp [hs]⟩⟩
  sortPerm l := (sortByKey_ok _ l).1
  sorted l := (sortByKey_ok _ l).2
  first c C t u hC ht _ _ _ := ⟨(C, List.range c.numSyms), by simpa [plainCrate] using hC, rfl, List.mem_range.2 ht⟩
  follow c w _ A t α β hA ht _ _ := ⟨(A, List.range c.numSyms), by simpa [plainCrate] using hA, rfl, List.mem_range.2 ht⟩

/-- `E ::= E plus E | a` as it is after binarization: `E` is 0, `a` 1, `plus` 2, 3 is not used, then the symbols of the
wrapping (root 4, start marker 5, end marker 6), then those of binarization (7 for `E plus`, 8 for the start marker and
`E`). -/
def plainCfg : Cfg where
  numSyms := 9
  rules := [
    { lhs := 0, rhs := [7, 0], origin := some 0, dots := Example.dots3 },
    { lhs := 0, rhs := [1], origin := some 1, dots := Example.dots3 },
    { lhs := 4, rhs := [8, 6], dots := Example.dots3 },
    { lhs := 7, rhs := [0, 2], dots := Example.dots3 },
    { lhs := 8, rhs := [5, 0], dots := Example.dots3 }]
  wrappedRoots := [⟨4, 5, 6, 0⟩]

def plainRoot : WrappedRoot := ⟨4, 5, 6, 0⟩

theorem plainCfg_ok : BinarizedOK plainCfg plainRoot where
  len := by decide
  lhs_lt := by decide
  rhs_lt := by decide
  fresh := by
    intro r hr s h
    simp only [plainCfg, List.mem_cons, List.not_mem_nil, or_false] at hr
    rcases hr with rfl | rfl | rfl | rfl | rfl <;> simp at h <;> subst h <;> decide
  genLhs := by
    have : ∀ r₁ ∈ plainCfg.rules, ∀ r₂ ∈ plainCfg.rules, ∀ A ∈ r₁.rhs[0]?, r₂.rhs[0]? = some A → Generated plainCfg A →
      r₁.lhs = r₂.lhs := by decide
    exact fun r₁ h₁ r₂ h₂ A hA => this r₁ h₁ r₂ h₂ A hA
  genUnary := by
    intro A hA
    have : ∀ A < 9, Generated plainCfg A → (plainCfg.rules.countP fun r => r.rhs = [A]) ≤ 1 := by decide
    refine this A ?_ hA
    obtain ⟨_, _, _, r, hr, rfl, _⟩ := hA
    have : ∀ r ∈ plainCfg.rules, r.lhs < 9 := by decide
    exact this r hr
  nested := ⟨fun s => s, by
    have : ∀ r ∈ plainCfg.rules, ∀ A ∈ r.rhs[0]?, Generated plainCfg A → r.lhs < A := by decide
    exact fun r hr A hA => this r hr A hA⟩
  dots := by decide
  numRoots := rfl
  root := rfl
  startRule := by decide
  eofOnce := by decide
  eofNot0 := by decide
  eofTerm := by decide
  startNot := by decide
  sofUsed := by decide
  sofTerm := by decide

theorem plainCfg_acyclic : UnaryAcyclic (rulesOf plainCfg) := ⟨fun s => s, by decide⟩

theorem plainCfg_wrapping : Wrapping (rulesOf plainCfg) plainRoot False := by
  refine ⟨⟨8, by decide⟩, ?_, by unfold Terminal; decide, by unfold Terminal; decide⟩
  rintro g0 h rfl
  revert h
  decide

/-- There is a parser for this grammar. -/
theorem plainCfg_parser : ∃ g, fromBinarized plainCrate plainCfg Example.noRules = pure g := by
  obtain ⟨c', n, ext, _, _, _, _, h⟩ := C46_built (nulling := Example.noRules) plainCrate_ok plainCfg_ok plainCfg_acyclic
  refine h fun r hr => ?_
  cases hr

-- the new order of the symbols: the end marker first, the generated symbols last, 3 is gone
example : (do let p ← remapSymbols plainCrate plainCfg; pure (p.2.toExternal, p.2.toInternal) : M _) =
    pure ([6, 0, 1, 2, 4, 5, 7, 8], [some 1, some 2, some 3, none, some 4, some 5, some 0, some 6, some 7]) := by decide +kernel

-- a sentence
example : Derives (rulesOf plainCfg) plainRoot.innerRoot [1, 2, 1] := by
  have a : Derives (rulesOf plainCfg) 0 [1] := .unary (r := ⟨0, 1, none⟩) (by decide) rfl (.refl _)
  exact .binary (r := ⟨0, 7, some 0⟩) (u := [1, 2]) (by decide) rfl
    (.binary (r := ⟨7, 0, some 2⟩) (u := [1]) (by decide) rfl a (.refl _)) a

end Gearley.Props
