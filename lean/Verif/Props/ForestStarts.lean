import Verif.Props.CGrammar
import Verif.Props.Forest

/-!
# C36 for a grammar made by `from_grammar`
-/

namespace Gearley.Props
open Gearley.Spec Build
variable {X : CfgCrate} {c nulling : Cfg} {w : WrappedRoot} {g : DefaultGrammar}

theorem foldlM_length {α β : Type} {f : List β → α → M (List β)} (hf : ∀ b a b', f b a = pure b' → b'.length ≤ b.length + 1) :
    ∀ {l : List α} {b b' : List β}, l.foldlM f b = pure b' → b'.length ≤ b.length + l.length
  | [], b, b', h => by
    cases pure_inj_M (show (pure b : M (List β)) = pure b' from h)
    simp
  | a :: l, b, b', h => by
    rw [List.foldlM_cons] at h
    obtain ⟨b1, h1, h⟩ := bind_eq_pure h
    have := hf _ _ _ h1
    have := foldlM_length hf h
    simp only [List.length_cons]
    omega

theorem nullingIntermediate_length {maps : Mapping} {L : List (Nat × Nat × Nat)} (h : nullingIntermediate maps nulling = pure L) :
    L.length ≤ nulling.rules.length := by
  unfold nullingIntermediate at h
  have := foldlM_length ?_ h
  · simpa using this
  · intro acc r acc' h
    split at h
    · obtain ⟨_, _, h⟩ := bind_eq_pure h
      obtain ⟨_, _, h⟩ := bind_eq_pure h
      obtain ⟨_, _, h⟩ := bind_eq_pure h
      obtain ⟨_, _, h⟩ := bind_eq_pure h
      obtain ⟨_, _, h⟩ := bind_eq_pure h
      obtain ⟨_, _, h⟩ := bind_eq_pure h
      obtain ⟨_, _, h⟩ := bind_eq_pure h
      obtain ⟨_, _, h⟩ := bind_eq_pure h
      cases pure_inj_M h
      simp
    · cases pure_inj_M h
      omega

/-- The symbols that the forest has to know are symbols of the parser. -/
theorem maxNulling_le (hX : CrateOK X) (hc : BinarizedOK c w) (h : fromBinarized X c nulling = pure g) :
    g.forestInfo.maxNullingSymbol.getD 0 ≤ c.numSyms ∧ g.forestInfo.nullingIntermediate.length ≤ nulling.rules.length := by
  obtain ⟨ext, h1, h2⟩ := remapSymbols_ok hX hc
  obtain ⟨depth, hP⟩ := remap_processed hX hc h2
  have hni := fromBinarized_nulling h
  unfold fromBinarized at h
  rw [h1, pure_bind] at h
  obtain ⟨_, _, h⟩ := bind_eq_pure h
  have h : fromProcessed (sortRulesByLhs X (renumber ext c)) (mappingOf ext c.numSyms) nulling
    (X.firstSets (sortRulesByLhs X (renumber ext c))) (X.followSets (sortRulesByLhs X (renumber ext c))) = pure g := h
  obtain ⟨root, hB⟩ := built_ok hP h
  have hlen : ext.length ≤ c.numSyms := by
    have := (List.subperm_of_subset h2.nodup (l₂ := List.range c.numSyms) fun s hs => List.mem_range.2 (h2.lt s hs)).length_le
    simpa using this
  have hnew : ∀ s, newNumber ext s ≤ c.numSyms := fun s => Nat.le_trans (List.idxOf_le_length) hlen
  refine ⟨?_, nullingIntermediate_length hni⟩
  have hle : ∀ s ∈ (g.forestInfo.nullingEliminated.filterMap id).map (·.1) ++
      g.forestInfo.nullingIntermediate.flatMap fun r => [r.1, r.2.1, r.2.2], s ≤ c.numSyms := by
    intro s hs
    rcases List.mem_append.1 hs with hs | hs
    · obtain ⟨p, hp, rfl⟩ := List.mem_map.1 hs
      rw [List.mem_filterMap] at hp
      obtain ⟨o, ho, rfl⟩ := hp
      rw [hB.nullingEliminated] at ho
      obtain ⟨r, hr, he⟩ := List.mem_map.1 ho
      obtain ⟨q, _, rfl⟩ := List.mem_map.1 ((hX.sortPerm _).mem_iff.1 hr)
      simp only [renumberRule, Option.map_eq_some_iff] at he
      obtain ⟨a, _, rfl⟩ := he
      exact hnew _
    · obtain ⟨⟨a, b, d⟩, hr, hs⟩ := List.mem_flatMap.1 hs
      obtain ⟨r, _, _, x, y, _, e1, e2, e3⟩ := (nullingIntermediate_mem hni a b d).1 hr
      rw [hB.maps] at e1 e2 e3
      have key : ∀ x v, toInternal (mappingOf ext c.numSyms) x = pure (some v) → v ≤ c.numSyms := by
        intro x v hv
        unfold toInternal at hv
        split at hv
        · rename_i h0
          have h0 : c.numSyms = 0 := by simpa [mappingOf] using h0
          have := hc.eof_lt
          omega
        · have := indexM_pure hv
          simp only [mappingOf, List.getElem?_map, Option.map_eq_some_iff] at this
          obtain ⟨z, _, hz⟩ := this
          split at hz
          · cases hz; exact hnew _
          · cases hz
      simp only [List.mem_cons, List.not_mem_nil, or_false] at hs
      rcases hs with rfl | rfl | rfl
      · exact key _ _ e1
      · exact key _ _ e2
      · exact key _ _ e3
  cases hm : g.forestInfo.maxNullingSymbol with
  | none => simp
  | some m => exact hle m (List.max?_eq_some_iff.1 hm).1

/-- C36. For a grammar with less than `2 ^ 20` symbols after binarization both bocages are created without panic. -/
theorem C36_parser (hX : CrateOK X) (hc : BinarizedOK c w) (h : fromBinarized X c nulling = pure g) (hs : c.numSyms < 2 ^ 20)
    (hr : nulling.rules.length ≤ 2 ^ 28) :
    (∃ b, Simple.Bocage.new g.forestInfo = pure b) ∧ ∃ b, Compact.Bocage.new g.forestInfo = pure b := by
  obtain ⟨h1, h2⟩ := maxNulling_le hX hc h
  obtain ⟨b, hb, _⟩ := C36_simple g.forestInfo (by omega) (by omega)
  obtain ⟨b', hb', _⟩ := C36_compact g.forestInfo (by omega) (by omega)
  exact ⟨⟨b, hb⟩, ⟨b', hb'⟩⟩

theorem flatMap_length_le {α β : Type} {f : α → List β} {k : Nat} : ∀ {l : List α}, (∀ a ∈ l, (f a).length ≤ k) → (l.flatMap f).length ≤ l.length * k
  | [], _ => by simp
  | a :: l, h => by
    have h1 := h a (by simp)
    have h2 := flatMap_length_le (l := l) fun b hb => h b (by simp [hb])
    rw [List.flatMap_cons, List.length_append, List.length_cons, Nat.succ_mul]
    omega

theorem if_length_le {α : Type} {p : Prop} {_ : Decidable p} (x : α) : (if p then [x] else []).length ≤ 1 := by split <;> simp

theorem userRules_length {U : URules} {N : Names U} {L : Nat} (hL : ∀ r ∈ U, r.2.length < L) : (userRules U N).length ≤ U.length * (3 * L) := by
  unfold userRules
  have : ∀ k ∈ List.range U.length, (match U[k]? with
      | some r => rulesFor U N k r.1 r.2
      | none => []).length ≤ 3 * L := by
    intro k _
    split
    · rename_i r hr
      have hl := hL r (List.mem_of_getElem? hr)
      have h1 : ((List.range r.2.length).flatMap fun j => match r.2[j]? with
          | some y => if 1 ≤ j then stepRules U N k r.1 r.2 j y else []
          | none => []).length ≤ (List.range r.2.length).length * 3 := by
        refine flatMap_length_le fun j _ => ?_
        split
        · split
          · unfold stepRules
            rw [List.length_append, List.length_append, List.length_singleton]
            exact Nat.add_le_add (Nat.add_le_add (Nat.le_refl 1) (if_length_le _)) (if_length_le _)
          · simp
        · simp
      rw [List.length_range] at h1
      unfold rulesFor
      rw [List.length_append]
      refine Nat.le_trans (Nat.add_le_add (?_ : _ ≤ 1) h1) (by omega)
      split <;> simp
    · simp
  have := flatMap_length_le this
  rw [List.length_range] at this
  exact this

/-- The standard parser of a grammar that is not too large, and its bocages. -/
theorem std_starts {U : URules} {m L root : Nat} (hm : ∀ r ∈ U, r.1 < m ∧ ∀ s ∈ r.2, s < m) (hL : ∀ r ∈ U, r.2.length < L)
    (hsize : m + 4 + U.length * L < 2 ^ 20) (h : ParserOf plainCrate U (standardNames U m L hm hL) (standardRoot m root) (m + 3)
      (standardCfg U (standardNames U m L hm hL) m L root) (standardNulling U (standardNames U m L hm hL) m L) g) :
    (standardCfg U (standardNames U m L hm hL) m L root).rules.length < 2 ^ 32 ∧
      (standardCfg U (standardNames U m L hm hL) m L root).numSyms ≤ 2 ^ 32 ∧
      (∃ b, Simple.Bocage.new g.forestInfo = pure b) ∧ ∃ b, Compact.Bocage.new g.forestInfo = pure b := by
  have hr := userRules_length (N := standardNames U m L hm hL) hL
  have he : U.length * (3 * L) = 3 * (U.length * L) := by rw [Nat.mul_left_comm]
  rw [he] at hr
  obtain ⟨h4, h5⟩ := C36_parser (g := g) h.crate h.ok h.made hsize (by
    show ((userRules U _).filter _).length ≤ _
    refine Nat.le_trans (List.length_filter_le _ _) ?_
    omega)
  refine ⟨?_, ?_, h4, h5⟩
  · show (List.dedup _).length < _
    refine Nat.lt_of_le_of_lt (List.dedup_sublist _).length_le ?_
    rw [List.length_append, List.length_append]
    refine Nat.lt_of_le_of_lt (Nat.add_le_add (Nat.add_le_add (Nat.le_refl 2) (if_length_le _)) hr) (by omega)
  · show m + 4 + U.length * L ≤ _
    omega

/-- C36, C55. For every grammar without cycles that is not too large there is a parser, as in `C55_every_grammar`, for which both
bocages are created without panic. The grammar is not too large if `m + 4 + n * L < 2 ^ 20`, where `m` is larger than the number
of each symbol, `n` is the number of rules, and `L` is larger than the length of each rule. -/
theorem C36_every_grammar {U : URules} {m L root : Nat} (hm : ∀ r ∈ U, r.1 < m ∧ ∀ s ∈ r.2, s < m) (hL : ∀ r ∈ U, r.2.length < L)
    (hsize : m + 4 + U.length * L < 2 ^ 20) (hroot : ∃ r ∈ U, r.1 = root) (ha : UAcyclic U) :
    ∃ (N : Names U) (w : WrappedRoot) (g0 : Nat) (c nulling : Cfg) (g : DefaultGrammar), w.innerRoot = root ∧
      UserParser plainCrate U N w g0 c nulling g ∧ EmptyKept U N c nulling g ∧
      (∀ toks, Tokens U c toks ↔ ∀ t ∈ toks, UTerminal U t ∧ ∃ r ∈ U, t ∈ r.2) ∧ c.rules.length < 2 ^ 32 ∧ c.numSyms ≤ 2 ^ 32 ∧
      (∃ b, Simple.Bocage.new g.forestInfo = pure b) ∧ ∃ b, Compact.Bocage.new g.forestInfo = pure b := by
  obtain ⟨g, h1, h2, h3⟩ := userParser_exists hm hL hroot ha
  exact ⟨_, _, _, _, _, g, rfl, h1, h2, tokens_standard hm hL h3, std_starts hm hL hsize h1.toParserOf⟩

/-- C36. The same for grammars with cycles. -/
theorem C36_any_grammar {U : URules} {m L root : Nat} (hm : ∀ r ∈ U, r.1 < m ∧ ∀ s ∈ r.2, s < m) (hL : ∀ r ∈ U, r.2.length < L)
    (hsize : m + 4 + U.length * L < 2 ^ 20) (hroot : ∃ r ∈ U, r.1 = root) :
    ∃ (N : Names U) (w : WrappedRoot) (g0 : Nat) (c nulling : Cfg) (g : DefaultGrammar), w.innerRoot = root ∧
      ParserOf plainCrate U N w g0 c nulling g ∧ EmptyKept U N c nulling g ∧
      (∀ toks, Tokens U c toks ↔ ∀ t ∈ toks, UTerminal U t ∧ ∃ r ∈ U, t ∈ r.2) ∧ c.rules.length < 2 ^ 32 ∧ c.numSyms ≤ 2 ^ 32 ∧
      (∃ b, Simple.Bocage.new g.forestInfo = pure b) ∧ ∃ b, Compact.Bocage.new g.forestInfo = pure b := by
  obtain ⟨g, h1, h2, h3⟩ := parserOf_exists hm hL hroot
  exact ⟨_, _, _, _, _, g, rfl, h1, h2, tokens_standard hm hL h3, std_starts hm hL hsize h1⟩

/-- C36, C61. For the C grammar there is a parser for which both bocages are created. -/
theorem C61_forests : ∃ (N : Names cRules) (w : WrappedRoot) (g0 : Nat) (c nulling : Cfg) (g : DefaultGrammar), w.innerRoot = CSym.start.num ∧
    UserParser plainCrate cRules N w g0 c nulling g ∧ EmptyKept cRules N c nulling g ∧
      (∀ words : List CSym, (∀ s ∈ words, CTerminal s) → Tokens cRules c (words.map CSym.num)) ∧ c.rules.length < 2 ^ 32 ∧ c.numSyms ≤ 2 ^ 32 ∧
      (∃ b, Simple.Bocage.new g.forestInfo = pure b) ∧ ∃ b, Compact.Bocage.new g.forestInfo = pure b := by
  have hm : ∀ r ∈ cRules, r.1 < 200 ∧ ∀ s ∈ r.2, s < 200 := by decide +kernel
  have hL : ∀ r ∈ cRules, r.2.length < 20 := by decide +kernel
  have hn : cRules.length < 1000 := by decide +kernel
  obtain ⟨N, w, g0, c, nulling, g, h1, h2, h3, h4, h5⟩ := C36_every_grammar hm hL (by omega) start_rule CGrammar.c_acyclic
  refine ⟨N, w, g0, c, nulling, g, h1, h2, h3, fun words hw => (h4 _).2 ?_, h5⟩
  intro t ht
  obtain ⟨s, hs, rfl⟩ := List.mem_map.1 ht
  refine ⟨(terminal_iff s).2 (hw s hs), used s ?_⟩
  rintro rfl
  exact absurd (hw _ hs) (by decide +kernel)

end Gearley.Props
