import Verif.Props.FromGrammar
import Verif.Props.Forest

/-!
# C36: bocages for parsers made from grammars

`C36_simple` and `C36_compact` ask for bounds on the nulling symbols of the parser. Here the bounds are on the grammar.
-/

namespace Gearley.Props
open Gearley.Spec Build

theorem toInternal_le {ext : List Nat} {n s x : Nat} (hl : ext.length ≤ n) (h : Build.toInternal (mappingOf ext n) s = pure (some x)) (h0 : 0 < n) : x ≤ n := by
  unfold Build.toInternal at h
  rw [if_neg (by
    intro h
    have := congrArg List.length h
    simp only [mappingOf, List.length_map, List.length_range, List.length_nil] at this
    omega)] at h
  unfold indexM at h
  split at h
  · rename_i y hy
    have h := pure_inj_M h
    subst h
    have := List.mem_of_getElem? hy
    simp only [mappingOf, List.mem_map] at this
    obtain ⟨a, _, h1⟩ := this
    split at h1
    · have h1 := Option.some.inj h1
      have := List.idxOf_le_length (a := a) (l := ext)
      unfold newNumber at h1
      omega
    · cases h1
  · cases h

theorem nullingIntermediate_le {ext : List Nat} {n : Nat} (hl : ext.length ≤ n) (h0 : 0 < n) : ∀ (rules : List CfgRule) (acc ni : List (Nat × Nat × Nat)),
    rules.foldlM (fun acc rule =>
      if rule.origin = none ∧ rule.rhs.length = 2 then do
        let a ← toInternal (mappingOf ext n) rule.lhs
        let a ← unwrapM a
        let r0 ← indexM rule.rhs 0
        let b ← toInternal (mappingOf ext n) r0
        let b ← unwrapM b
        let r1 ← indexM rule.rhs 1
        let c ← toInternal (mappingOf ext n) r1
        let c ← unwrapM c
        pure (acc ++ [(a, b, c)])
      else pure acc) acc = (pure ni : M _) →
    (∀ r ∈ acc, r.1 ≤ n ∧ r.2.1 ≤ n ∧ r.2.2 ≤ n) → (∀ r ∈ ni, r.1 ≤ n ∧ r.2.1 ≤ n ∧ r.2.2 ≤ n) ∧ ni.length ≤ acc.length + rules.length := by
  have huw : ∀ {a : Option Nat} {x : Nat}, unwrapM a = pure x → a = some x := by
    intro a x h
    cases a with
    | none => cases h
    | some y => rw [pure_inj_M (show (pure y : M Nat) = pure x from h)]
  intro rules
  induction rules with
  | nil =>
    intro acc ni h ha
    cases pure_inj_M h
    exact ⟨ha, by simp⟩
  | cons r rules ih =>
    intro acc ni h ha
    rw [List.foldlM_cons] at h
    obtain ⟨acc', h1, h⟩ := bind_eq_pure h
    split at h1
    · obtain ⟨a, a1, h1⟩ := bind_eq_pure h1
      obtain ⟨a', a2, h1⟩ := bind_eq_pure h1
      obtain ⟨r0, _, h1⟩ := bind_eq_pure h1
      obtain ⟨b, b1, h1⟩ := bind_eq_pure h1
      obtain ⟨b', b2, h1⟩ := bind_eq_pure h1
      obtain ⟨r1, _, h1⟩ := bind_eq_pure h1
      obtain ⟨c, c1, h1⟩ := bind_eq_pure h1
      obtain ⟨c', c2, h1⟩ := bind_eq_pure h1
      cases pure_inj_M h1
      cases huw a2
      cases huw b2
      cases huw c2
      obtain ⟨h2, h3⟩ := ih _ _ h (by
        intro r hr
        rcases List.mem_append.1 hr with hr | hr
        · exact ha r hr
        · simp only [List.mem_singleton] at hr
          subst hr
          exact ⟨toInternal_le hl a1 h0, toInternal_le hl b1 h0, toInternal_le hl c1 h0⟩)
      refine ⟨h2, ?_⟩
      simp only [List.length_append, List.length_cons, List.length_nil] at h3 ⊢
      omega
    · cases pure_inj_M h1
      obtain ⟨h2, h3⟩ := ih _ _ h ha
      refine ⟨h2, ?_⟩
      simp only [List.length_cons]
      omega

/-- C36. For a parser made from a grammar of fewer than `2 ^ 20` symbols both bocages are created. -/
theorem C36_made {X : CfgCrate} {c nulling : Cfg} {w : WrappedRoot} {g : DefaultGrammar} (hX : CrateOK X) (hc : BinarizedOK c w)
    (hg : fromBinarized X c nulling = pure g) (hn : c.numSyms < 2 ^ 20) (hl : nulling.rules.length < 2 ^ 28) :
    (∃ b, Simple.Bocage.new g.forestInfo = pure b) ∧ ∃ b, Compact.Bocage.new g.forestInfo = pure b := by
  obtain ⟨ext, h1, h2⟩ := remapSymbols_ok hX hc
  have h0 : 0 < c.numSyms := Nat.lt_of_le_of_lt (Nat.zero_le _) hc.eof_lt
  have hlen : ext.length ≤ c.numSyms := by
    have := (List.subperm_of_subset h2.nodup (l₂ := List.range c.numSyms) fun s hs => List.mem_range.2 (h2.lt s hs)).length_le
    simpa using this
  unfold fromBinarized at hg
  rw [h1, pure_bind] at hg
  obtain ⟨_, _, hg⟩ := bind_eq_pure hg
  unfold fromProcessed fromProcessedWith at hg
  obtain ⟨_, _, hg⟩ := bind_eq_pure hg
  obtain ⟨_, _, hg⟩ := bind_eq_pure hg
  obtain ⟨_, _, hg⟩ := bind_eq_pure hg
  obtain ⟨_, _, hg⟩ := bind_eq_pure hg
  obtain ⟨_, _, hg⟩ := bind_eq_pure hg
  obtain ⟨_, _, hg⟩ := bind_eq_pure hg
  obtain ⟨_, _, hg⟩ := bind_eq_pure hg
  obtain ⟨_, _, hg⟩ := bind_eq_pure hg
  obtain ⟨_, _, hg⟩ := bind_eq_pure hg
  obtain ⟨_, _, hg⟩ := bind_eq_pure hg
  obtain ⟨_, _, hg⟩ := bind_eq_pure hg
  obtain ⟨_, _, hg⟩ := bind_eq_pure hg
  obtain ⟨ni, hni, hg⟩ := bind_eq_pure hg
  cases pure_inj_M hg
  obtain ⟨h3, h4⟩ := nullingIntermediate_le hlen h0 nulling.rules [] ni hni (by simp)
  simp only [List.length_nil, Nat.zero_add] at h4
  have hmax : ∀ info : ForestInfo, info.nullingEliminated = (sortRulesByLhs X (renumber ext c)).rules.map (·.nullable) → info.nullingIntermediate = ni →
      info.maxNullingSymbol.getD 0 < 2 ^ 20 := by
    intro info e1 e2
    cases hm : info.maxNullingSymbol with
    | none => decide
    | some m =>
      unfold ForestInfo.maxNullingSymbol at hm
      have hmem := List.max?_mem hm
      have : m ≤ c.numSyms := by
        rw [e1, e2] at hmem
        rcases List.mem_append.1 hmem with h | h
        · obtain ⟨p, hp, rfl⟩ := List.mem_map.1 h
          obtain ⟨q, hq, e⟩ := List.mem_filterMap.1 hp
          obtain ⟨r, hr, rfl⟩ := List.mem_map.1 hq
          have hr' := (hX.sortPerm _).mem_iff.1 hr
          obtain ⟨r', _, rfl⟩ := List.mem_map.1 hr'
          simp only [id, renumberRule, Option.map_eq_some_iff] at e
          obtain ⟨p', _, rfl⟩ := e
          have := List.idxOf_le_length (a := p'.1) (l := ext)
          show newNumber ext p'.1 ≤ c.numSyms
          unfold newNumber
          omega
        · obtain ⟨r, hr, h⟩ := List.mem_flatMap.1 h
          obtain ⟨a1, a2, a3⟩ := h3 r hr
          simp only [List.mem_cons, List.not_mem_nil, or_false] at h
          rcases h with rfl | rfl | rfl <;> assumption
      show m < 2 ^ 20
      omega
  have key : ∀ info : ForestInfo, info.nullingEliminated = (sortRulesByLhs X (renumber ext c)).rules.map (·.nullable) → info.nullingIntermediate = ni →
      (∃ b, Simple.Bocage.new info = pure b) ∧ ∃ b, Compact.Bocage.new info = pure b := by
    intro info e1 e2
    have hm := hmax info e1 e2
    rw [← e2] at h4
    obtain ⟨b, hb, _⟩ := C36_simple info hm (by omega)
    obtain ⟨b', hb', _⟩ := C36_compact info hm (by omega)
    exact ⟨⟨b, hb⟩, b', hb'⟩
  exact key _ rfl rfl

end Gearley.Props
