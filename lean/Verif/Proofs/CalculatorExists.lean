import Verif.Proofs.Calculator

/-! # Parsers for the calculator's grammar -/

namespace Gearley.Calculator.Precedenced
open Gearley.Spec Gearley.Props Build

/-- The binarized grammar needs one new symbol for each of the five rules with three symbols, 24-28. Symbols 20-23 belong to the
wrapping. -/
def calcNames : Names grammar where
  name k j := if j = 2 then (if k = 0 then 24 else if k = 1 then 25 else if k = 3 then 26 else if k = 4 then 27 else if k = 6 then 28 else 0) else 0
  parts s := if s = 24 then some (0, 2) else if s = 25 then some (1, 2) else if s = 26 then some (3, 2) else if s = 27 then some (4, 2)
    else if s = 28 then some (6, 2) else none
  parts_name k A rhs j hk h2 hj := by
    rcases grammar_cases hk with ⟨o, rfl, _, rfl⟩ | ⟨_, _, rfl⟩ | ⟨_, _, rfl⟩ | ⟨rfl, _, rfl⟩ | ⟨_, _, rfl⟩ | ⟨d, _, _, rfl⟩ | ⟨d, _, _, rfl⟩ <;>
      simp only [List.length_cons, List.length_nil] at hj
    · have : j = 2 := by omega
      subst this
      cases o <;> rfl
    · omega
    · omega
    · have : j = 2 := by omega
      subst this
      rfl
    all_goals omega
  user r hr := by
    revert r
    decide +kernel

/-- The binarized rules. -/
def calcRules : List CfgRule :=
  (List.range grammar.length).flatMap fun k => match grammar[k]? with
    | some (A, [s]) => [{ lhs := A, rhs := [s], origin := some k, dots := Example.dots3 }]
    | some (A, [s, t]) => [{ lhs := A, rhs := [s, t], origin := some k, dots := Example.dots3 }]
    | some (A, [s, t, u]) => [{ lhs := calcNames.name k 2, rhs := [s, t], dots := Example.dots3 },
        { lhs := A, rhs := [calcNames.name k 2, u], origin := some k, dots := Example.dots3 }]
    | _ => []

theorem step_one {k A j y : Nat} {rhs : List Nat} (hj : 1 ≤ j) (hr : rhs ≠ []) : stepRules grammar calcNames k A rhs j y =
    [{ lhs := if j + 1 = rhs.length then A else calcNames.name k (j + 1), rhs := [calcNames.pre k rhs j, y],
       origin := if j + 1 = rhs.length then some k else none, nullable := none, dots := Example.dots3 }] := by
  have h3 : ¬ ∀ s ∈ rhs.take j, UNullable grammar s := by
    intro h
    match rhs, j, hr, hj with
    | s :: rhs, j + 1, _, _ => exact not_nullable s (h s (by simp))
  unfold stepRules
  rw [if_neg (not_nullable y), if_neg h3]
  rfl

theorem calcRules_eq : calcRules = userRules grammar calcNames := by
  unfold calcRules userRules
  refine List.flatMap_congr fun k _ => ?_
  cases hk : grammar[k]? with
  | none => rfl
  | some p =>
    obtain ⟨A, rhs⟩ := p
    rcases grammar_cases hk with ⟨o, _, _, rfl⟩ | ⟨_, _, rfl⟩ | ⟨_, _, rfl⟩ | ⟨_, _, rfl⟩ | ⟨_, _, rfl⟩ | ⟨d, _, _, rfl⟩ | ⟨d, _, _, rfl⟩ <;>
      simp [rulesFor, List.range_succ, step_one, Names.pre]

/-- The wrapped and binarized grammar. -/
def calcCfg : Cfg where
  numSyms := 29
  rules := [wrapRoot 20, wrapBoth 20 0] ++ calcRules
  wrappedRoots := [standardRoot 20 0]

theorem mem_calc {r : CfgRule} : r ∈ calcCfg.rules ↔ r = wrapRoot 20 ∨ r = wrapBoth 20 0 ∨ (Expected grammar calcNames r ∧ r.dots = Example.dots3) := by
  show r ∈ [wrapRoot 20, wrapBoth 20 0] ++ calcRules ↔ _
  rw [calcRules_eq, List.mem_append, mem_userRules]
  simp [or_assoc]

theorem calc_binarizes : Binarizes grammar calcNames (standardRoot 20 0) 23 calcCfg where
  sound r hr := by
    rcases mem_calc.1 hr with rfl | rfl | ⟨he, _⟩
    · exact .inl rfl
    · exact .inr (.inl rfl)
    · exact .inr (.inr he)
  complete r he _ := by
    refine ⟨{ r with dots := Example.dots3 }, mem_calc.2 (.inr (.inr ⟨?_, rfl⟩)), rfl⟩
    cases he with
    | single hk => exact .single hk
    | both hk hj hy => exact .both hk hj hy
    | dropRight hk hj hy hn => exact .dropRight hk hj hy hn
    | dropLeft hk hj hy hn => exact .dropLeft hk hj hy hn
  nodup := by decide +kernel
  once := by decide +kernel
  fresh s hs := by
    rcases hs with rfl | rfl | rfl | rfl <;> decide +kernel

theorem calc_ok : BinarizedOK calcCfg (standardRoot 20 0) where
  len := by decide +kernel
  lhs_lt := by decide +kernel
  rhs_lt := by decide +kernel
  fresh := by
    have : ∀ r ∈ calcCfg.rules, r.rhs.length = 1 → ¬ Generated calcCfg r.lhs ∧ ∀ s ∈ r.rhs, ¬ Generated calcCfg s := by decide +kernel
    intro r hr s h
    obtain ⟨h1, h2⟩ := this r hr (by rw [h]; rfl)
    exact ⟨fun h' => absurd h' h1, fun _ h' => absurd h' (h2 s (by rw [h]; simp))⟩
  genLhs := by
    have : ∀ r₁ ∈ calcCfg.rules, ∀ r₂ ∈ calcCfg.rules, ∀ A ∈ r₁.rhs[0]?, r₂.rhs[0]? = some A → Generated calcCfg A →
      r₁.lhs = r₂.lhs := by decide +kernel
    exact fun r₁ h₁ r₂ h₂ A hA => this r₁ h₁ r₂ h₂ A hA
  genUnary := by
    intro A hA
    have : ∀ A < 29, Generated calcCfg A → (calcCfg.rules.countP fun r => r.rhs = [A]) ≤ 1 := by decide +kernel
    refine this A ?_ hA
    obtain ⟨_, _, _, r, hr, rfl, _⟩ := hA
    have : ∀ r ∈ calcCfg.rules, r.lhs < 29 := by decide +kernel
    exact this r hr
  nested := ⟨fun s => s, by
    have : ∀ r ∈ calcCfg.rules, ∀ A ∈ r.rhs[0]?, Generated calcCfg A → r.lhs < A := by decide +kernel
    exact fun r hr A hA => this r hr A hA⟩
  dots := by decide +kernel
  numRoots := rfl
  root := rfl
  startRule := by decide +kernel
  eofOnce := by decide +kernel
  eofNot0 := by decide +kernel
  eofTerm := by decide +kernel
  startNot := by decide +kernel
  sofUsed := by decide +kernel
  sofTerm := by decide +kernel

theorem calc_acyclic : UnaryAcyclic (rulesOf calcCfg) := ⟨fun s => s, by decide +kernel⟩

theorem calc_wrapping : Wrapping (rulesOf calcCfg) (standardRoot 20 0) (UNullable grammar 0) := by
  refine ⟨⟨23, by decide +kernel, by decide +kernel, ⟨fun h => absurd h (by decide +kernel), fun h => absurd h (not_nullable 0)⟩, by decide +kernel⟩, ?_,
    by unfold Terminal; decide +kernel, by unfold Terminal; decide +kernel⟩
  rintro g0 h rfl
  revert h
  decide +kernel

theorem fromBinarized_maps {X : CfgCrate} {c nulling : Cfg} {g : DefaultGrammar} (h : fromBinarized X c nulling = pure g) :
    ∃ c', remapSymbols X c = pure (c', g.symMaps) := by
  unfold fromBinarized at h
  obtain ⟨⟨c1, maps⟩, h1, h⟩ := bind_eq_pure h
  obtain ⟨_, _, h⟩ := bind_eq_pure h
  unfold fromProcessed fromProcessedWith at h
  obtain ⟨_, _, h⟩ := bind_eq_pure h
  obtain ⟨_, _, h⟩ := bind_eq_pure h
  obtain ⟨_, _, h⟩ := bind_eq_pure h
  obtain ⟨_, _, h⟩ := bind_eq_pure h
  obtain ⟨_, _, h⟩ := bind_eq_pure h
  obtain ⟨_, _, h⟩ := bind_eq_pure h
  obtain ⟨_, _, h⟩ := bind_eq_pure h
  obtain ⟨_, _, h⟩ := bind_eq_pure h
  obtain ⟨_, _, h⟩ := bind_eq_pure h
  obtain ⟨_, _, h⟩ := bind_eq_pure h
  obtain ⟨_, _, h⟩ := bind_eq_pure h
  obtain ⟨_, _, h⟩ := bind_eq_pure h
  obtain ⟨ni, hni, h⟩ := bind_eq_pure h
  cases pure_inj_M h
  exact ⟨c1, h1⟩

/-- Every crate that satisfies the contract makes a parser. -/
theorem calc_parser {X : CfgCrate} (hX : CrateOK X) : ∃ g, UserParser X grammar calcNames (standardRoot 20 0) 23 calcCfg Example.noRules g ∧
    EmptyKept grammar calcNames calcCfg Example.noRules g := by
  obtain ⟨c', n, ext, _, _, hocc, hb, hg⟩ := C46_built (nulling := Example.noRules) hX calc_ok calc_acyclic
  obtain ⟨g, hg⟩ := hg fun r hr => by cases hr
  refine ⟨g, ⟨⟨hX, calc_ok, hg, calc_binarizes, calc_wrapping, by decide +kernel, by decide +kernel⟩, calc_acyclic⟩, ⟨?_, ?_⟩, ?_, ?_⟩
  · intro r hr
    cases hr
  · intro k A rhs j y hk hj hlt hy h
    exfalso
    match rhs, hlt with
    | s :: rhs, _ => exact not_nullable s (h s (by simp))
  · intro r hr
    cases hr
  · have : ∀ r ∈ calcCfg.rules, r.nullable = none := by decide +kernel
    intro r hr p hp
    rw [this r hr] at hp
    cases hp

/-- A crate that uses the order `l` where it is allowed. -/
def orderCrate (l : List Nat) : CfgCrate :=
  { plainCrate with
    reorder := fun cmp n =>
      if l.Perm (List.range n) ∧ ∀ p ∈ l.zip l.tail, cmp p.1 p.2 ≠ pure .gt then pure l else plainCrate.reorder cmp n }

theorem orderCrate_ok (l : List Nat) : CrateOK (orderCrate l) where
  reorder cmp n hret hanti := by
    by_cases h : l.Perm (List.range n) ∧ ∀ p ∈ l.zip l.tail, cmp p.1 p.2 ≠ pure .gt
    · refine ⟨l, if_pos h, h.1, fun i a b ha hb => h.2 (a, b) ?_⟩
      refine List.mem_of_getElem? (i := i) ?_
      rw [List.getElem?_zip_eq_some]
      exact ⟨ha, by rw [List.getElem?_tail]; exact hb⟩
    · obtain ⟨l', h1, h2⟩ := plainCrate_ok.reorder cmp n hret hanti
      exact ⟨l', by rw [← h1]; exact if_neg h, h2⟩
  used := plainCrate_ok.used
  sortPerm := plainCrate_ok.sortPerm
  sorted := plainCrate_ok.sorted
  first := plainCrate_ok.first
  follow := plainCrate_ok.follow

/-- The symbols in an order that is allowed: `)` after the digits. -/
def lateParen : List Nat := [22, 0, 1, 2, 3, 4, 5, 6, 7, 8, 10, 11, 12, 13, 14, 15, 16, 17, 18, 19, 9, 20, 21, 23, 24, 25, 26, 27, 28]

theorem toInternal_of {X : CfgCrate} {g : DefaultGrammar} {c : Cfg} {nulling : Cfg} {l : List (Option Nat)} {p : Option Nat} {t : Nat}
    (hg : fromBinarized X c nulling = pure g) (hl : (do let p ← remapSymbols X c; pure p.2.toInternal : M _) = pure l) (hne : l ≠ []) (ht : l[t]? = some p) :
    g.toInternal t = pure p := by
  obtain ⟨c', h1⟩ := fromBinarized_maps hg
  rw [h1, pure_bind] at hl
  have hl := pure_inj_M hl
  subst hl
  show Build.toInternal g.symMaps t = _
  unfold Build.toInternal
  rw [if_neg]
  · exact indexM_eq ht
  · exact hne

-- numbers of the symbols with a stable sort
theorem calc_plain : (do let p ← remapSymbols plainCrate calcCfg; pure p.2.toInternal : M _) =
    pure ((List.range 29).map fun t => some (if t < 22 then t + 1 else if t = 22 then 0 else t)) := by decide +kernel

-- and if `)` comes late
theorem calc_late : (do let p ← remapSymbols (orderCrate lateParen) calcCfg; pure p.2.toInternal : M _) =
    pure ((List.range 29).map fun t => some (if t < 9 then t + 1 else if t = 9 then 20 else if t < 20 then t else if t < 22 then t + 1 else if t = 22 then 0 else t)) := by
  decide +kernel

end Gearley.Calculator.Precedenced
