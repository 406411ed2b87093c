import Verif.Proofs.AmbiguousMath

/-! # Parsers for the ambiguous grammar of arithmetic -/

namespace Gearley.Calculator.Ambiguous
open Gearley.Spec Gearley.Props Build
open Gearley.Calculator.Precedenced (orderCrate orderCrate_ok toInternal_of)

/-- The binarized grammar needs one new symbol, 21. Symbols 17-20 belong to the wrapping. -/
def ambNames : Names grammar where
  name k j := if j = 2 ∧ k = 0 then 21 else 0
  parts s := if s = 21 then some (0, 2) else none
  parts_name k A rhs j hk h2 hj := by
    rcases grammar_cases hk with ⟨rfl, _, rfl⟩ | ⟨_, _, rfl⟩ | ⟨o, rfl, _, rfl⟩ | ⟨d, _, _, rfl⟩ | ⟨d, _, _, rfl⟩ <;>
      simp only [List.length_cons, List.length_nil] at hj
    · have : j = 2 := by omega
      subst this
      rfl
    all_goals omega
  user r hr := by
    revert r
    decide +kernel

/-- The binarized rules. -/
def ambRules : List CfgRule :=
  (List.range grammar.length).flatMap fun k => match grammar[k]? with
    | some (A, [s]) => [{ lhs := A, rhs := [s], origin := some k, dots := Example.dots3 }]
    | some (A, [s, t]) => [{ lhs := A, rhs := [s, t], origin := some k, dots := Example.dots3 }]
    | some (A, [s, t, u]) => [{ lhs := ambNames.name k 2, rhs := [s, t], dots := Example.dots3 },
        { lhs := A, rhs := [ambNames.name k 2, u], origin := some k, dots := Example.dots3 }]
    | _ => []

theorem step_one {k A j y : Nat} {rhs : List Nat} (hj : 1 ≤ j) (hr : rhs ≠ []) : stepRules grammar ambNames k A rhs j y =
    [{ lhs := if j + 1 = rhs.length then A else ambNames.name k (j + 1), rhs := [ambNames.pre k rhs j, y],
       origin := if j + 1 = rhs.length then some k else none, nullable := none, dots := Example.dots3 }] := by
  have h3 : ¬ ∀ s ∈ rhs.take j, UNullable grammar s := by
    intro h
    match rhs, j, hr, hj with
    | s :: rhs, j + 1, _, _ => exact not_nullable s (h s (by simp))
  unfold stepRules
  rw [if_neg (not_nullable y), if_neg h3]
  rfl

theorem ambRules_eq : ambRules = userRules grammar ambNames := by
  unfold ambRules userRules
  refine List.flatMap_congr fun k _ => ?_
  cases hk : grammar[k]? with
  | none => rfl
  | some p =>
    obtain ⟨A, rhs⟩ := p
    rcases grammar_cases hk with ⟨_, _, rfl⟩ | ⟨_, _, rfl⟩ | ⟨o, _, _, rfl⟩ | ⟨d, _, _, rfl⟩ | ⟨d, _, _, rfl⟩ <;>
      simp [rulesFor, List.range_succ, step_one, Names.pre]

/-- The wrapped and binarized grammar. -/
def ambCfg : Cfg where
  numSyms := 22
  rules := [wrapRoot 17, wrapBoth 17 0] ++ ambRules
  wrappedRoots := [standardRoot 17 0]

theorem mem_amb {r : CfgRule} : r ∈ ambCfg.rules ↔ r = wrapRoot 17 ∨ r = wrapBoth 17 0 ∨ (Expected grammar ambNames r ∧ r.dots = Example.dots3) := by
  show r ∈ [wrapRoot 17, wrapBoth 17 0] ++ ambRules ↔ _
  rw [ambRules_eq, List.mem_append, mem_userRules]
  simp [or_assoc]

theorem amb_binarizes : Binarizes grammar ambNames (standardRoot 17 0) 20 ambCfg where
  sound r hr := by
    rcases mem_amb.1 hr with rfl | rfl | ⟨he, _⟩
    · exact .inl rfl
    · exact .inr (.inl rfl)
    · exact .inr (.inr he)
  complete r he _ := by
    refine ⟨{ r with dots := Example.dots3 }, mem_amb.2 (.inr (.inr ⟨?_, rfl⟩)), rfl⟩
    cases he with
    | single hk => exact .single hk
    | both hk hj hy => exact .both hk hj hy
    | dropRight hk hj hy hn => exact .dropRight hk hj hy hn
    | dropLeft hk hj hy hn => exact .dropLeft hk hj hy hn
  nodup := by decide +kernel
  once := by decide +kernel
  fresh s hs := by
    rcases hs with rfl | rfl | rfl | rfl <;> decide +kernel

theorem amb_ok : BinarizedOK ambCfg (standardRoot 17 0) where
  len := by decide +kernel
  lhs_lt := by decide +kernel
  rhs_lt := by decide +kernel
  fresh := by
    have : ∀ r ∈ ambCfg.rules, r.rhs.length = 1 → ¬ Generated ambCfg r.lhs ∧ ∀ s ∈ r.rhs, ¬ Generated ambCfg s := by decide +kernel
    intro r hr s h
    obtain ⟨h1, h2⟩ := this r hr (by rw [h]; rfl)
    exact ⟨fun h' => absurd h' h1, fun _ h' => absurd h' (h2 s (by rw [h]; simp))⟩
  genLhs := by
    have : ∀ r₁ ∈ ambCfg.rules, ∀ r₂ ∈ ambCfg.rules, ∀ A ∈ r₁.rhs[0]?, r₂.rhs[0]? = some A → Generated ambCfg A →
      r₁.lhs = r₂.lhs := by decide +kernel
    exact fun r₁ h₁ r₂ h₂ A hA => this r₁ h₁ r₂ h₂ A hA
  genUnary := by
    intro A hA
    have : ∀ A < 22, Generated ambCfg A → (ambCfg.rules.countP fun r => r.rhs = [A]) ≤ 1 := by decide +kernel
    refine this A ?_ hA
    obtain ⟨_, _, _, r, hr, rfl, _⟩ := hA
    have : ∀ r ∈ ambCfg.rules, r.lhs < 22 := by decide +kernel
    exact this r hr
  nested := ⟨fun s => s, by
    have : ∀ r ∈ ambCfg.rules, ∀ A ∈ r.rhs[0]?, Generated ambCfg A → r.lhs < A := by decide +kernel
    exact fun r hr A hA => this r hr A hA⟩
  dots := by decide +kernel
  numRoots := rfl
  root := rfl
  startRule := by decide +kernel
  eofOnce := by decide +kernel
  eofNot0 := by decide +kernel
  eofTerm := by decide +kernel
  startNot := by decide +kernel
  sofUsed := by decide +kernel
  sofTerm := by decide +kernel

theorem amb_acyclic : UnaryAcyclic (rulesOf ambCfg) := ⟨fun s => s, by decide +kernel⟩

theorem amb_wrapping : Wrapping (rulesOf ambCfg) (standardRoot 17 0) (UNullable grammar 0) := by
  refine ⟨⟨20, by decide +kernel, by decide +kernel, ⟨fun h => absurd h (by decide +kernel), fun h => absurd h (not_nullable 0)⟩, by decide +kernel⟩, ?_,
    by unfold Terminal; decide +kernel, by unfold Terminal; decide +kernel⟩
  rintro g0 h rfl
  revert h
  decide +kernel

/-- Every crate that satisfies the contract makes a parser. -/
theorem amb_parser {X : CfgCrate} (hX : CrateOK X) : ∃ g, UserParser X grammar ambNames (standardRoot 17 0) 20 ambCfg Example.noRules g ∧
    EmptyKept grammar ambNames ambCfg Example.noRules g := by
  obtain ⟨c', n, ext, _, _, hocc, hb, hg⟩ := C46_built (nulling := Example.noRules) hX amb_ok amb_acyclic
  obtain ⟨g, hg⟩ := hg fun r hr => by cases hr
  refine ⟨g, ⟨⟨hX, amb_ok, hg, amb_binarizes, amb_wrapping, by decide +kernel, by decide +kernel⟩, amb_acyclic⟩, ⟨?_, ?_⟩, ?_, ?_⟩
  · intro r hr
    cases hr
  · intro k A rhs j y hk hj hlt hy h
    exfalso
    match rhs, hlt with
    | s :: rhs, _ => exact not_nullable s (h s (by simp))
  · intro r hr
    cases hr
  · have : ∀ r ∈ ambCfg.rules, r.nullable = none := by decide +kernel
    intro r hr p hp
    rw [this r hr] at hp
    cases hp

/-- The symbols in an order that is allowed: `/` after the digits. -/
def lateDiv : List Nat := [19, 0, 1, 2, 3, 4, 5, 7, 8, 9, 10, 11, 12, 13, 14, 15, 16, 6, 17, 18, 20, 21]

-- numbers of the symbols with a stable sort
theorem amb_plain : (do let p ← remapSymbols plainCrate ambCfg; pure p.2.toInternal : M _) =
    pure ((List.range 22).map fun t => some (if t < 19 then t + 1 else if t = 19 then 0 else t)) := by decide +kernel

-- and if `/` comes late
theorem amb_late : (do let p ← remapSymbols (orderCrate lateDiv) ambCfg; pure p.2.toInternal : M _) =
    pure ((List.range 22).map fun t => some (if t < 6 then t + 1 else if t = 6 then 17 else if t < 17 then t else if t < 19 then t + 1 else if t = 19 then 0 else t)) := by
  decide +kernel

/-- Numbers go up in rules with one symbol. -/
theorem down_of {X : CfgCrate} {g : DefaultGrammar} {l : List (Option Nat)} (hg : fromBinarized X ambCfg Example.noRules = pure g)
    (hl : (do let p ← remapSymbols X ambCfg; pure p.2.toInternal : M _) = pure l) (hne : l ≠ [])
    (hd : ∀ r ∈ ambCfg.rules, ∀ B ∈ r.rhs, r.rhs = [B] → ∃ x y, l[r.lhs]? = some (some x) ∧ l[B]? = some (some y) ∧ x < y) : UnaryDown ambCfg g := by
  intro r hr B hB x y hx hy
  obtain ⟨x', y', h1, h2, h3⟩ := hd r hr B (by rw [hB]; simp) hB
  cases pure_inj_M ((toInternal_of hg hl hne h1).symm.trans hx)
  cases pure_inj_M ((toInternal_of hg hl hne h2).symm.trans hy)
  exact h3

theorem down_check (l : List (Option Nat)) (h : (ambCfg.rules.all fun r => match r.rhs with
    | [B] => match l[r.lhs]?, l[B]? with
      | some (some x), some (some y) => decide (x < y)
      | _, _ => false
    | _ => true) = true) :
    ∀ r ∈ ambCfg.rules, ∀ B ∈ r.rhs, r.rhs = [B] → ∃ x y, l[r.lhs]? = some (some x) ∧ l[B]? = some (some y) ∧ x < y := by
  intro r hr B _ hB
  have := List.all_eq_true.1 h r hr
  rw [hB] at this
  simp only at this
  split at this
  · rename_i x y hx hy
    exact ⟨x, y, hx, hy, of_decide_eq_true this⟩
  · cases this

theorem plain_down {g : DefaultGrammar} (hg : fromBinarized plainCrate ambCfg Example.noRules = pure g) : UnaryDown ambCfg g :=
  down_of hg amb_plain (by decide) (down_check _ (by decide +kernel))

theorem late_down {g : DefaultGrammar} (hg : fromBinarized (orderCrate lateDiv) ambCfg Example.noRules = pure g) : UnaryDown ambCfg g :=
  down_of hg amb_late (by decide) (down_check _ (by decide +kernel))

end Gearley.Calculator.Ambiguous
