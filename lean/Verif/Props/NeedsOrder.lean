import Verif.Props.Packed
import Verif.Props.Determinism
import Verif.Props.UserPacked
import Verif.Props.CostAny
import Verif.Props.EvalCost

/-!
# The order of one-symbol rules is needed (C42, C44, C45, C57, C58)

`S ::= X b`, `X ::= Y | a`, `Y ::= a`. If `X` is declared before `Y`, the parser makes one node for `X` with two alternatives.
If `Y` is declared before `X`, `remap_symbols` numbers `Y` below `X`; then the group of `X` is completed before `Y` is, and once
more after it. There are two nodes for `X` over the same range, and `S` gets the same rule with the same split twice. So what
the evaluator returns depends on the order in which the user declares symbols.
-/

namespace Gearley.Props
open Gearley.Spec Build

namespace TwoNodes

/-! ### The user's grammar in two orders -/

/-- The number of `X` (1) and `Y` (2), or of `X` (2) and `Y` (1). -/
def num (o : Bool) (j : Nat) : Nat := if o then j else 3 - j

/-- `S ::= X b`, `X ::= Y | a`, `Y ::= a`, with 0 for `S`, 3 for `a` and 4 for `b`. -/
def rules (o : Bool) : URules := [(0, [num o 1, 4]), (num o 1, [num o 2]), (num o 1, [3]), (num o 2, [3])]

theorem rules_cases {o : Bool} {k A : Nat} {rhs : List Nat} (h : (rules o)[k]? = some (A, rhs)) :
    (k = 0 ∧ A = 0 ∧ rhs = [num o 1, 4]) ∨ (k = 1 ∧ A = num o 1 ∧ rhs = [num o 2]) ∨ (k = 2 ∧ A = num o 1 ∧ rhs = [3]) ∨
      (k = 3 ∧ A = num o 2 ∧ rhs = [3]) := by
  match k with
  | 0 | 1 | 2 | 3 =>
    cases h
    simp
  | k + 4 => simp [rules] at h

theorem not_nullable {o : Bool} (s : Nat) : ¬ UNullable (rules o) s := by
  intro h
  induction h with
  | rule hk _ ih =>
    rcases rules_cases hk with ⟨_, _, rfl⟩ | ⟨_, _, rfl⟩ | ⟨_, _, rfl⟩ | ⟨_, _, rfl⟩ <;> exact ih _ (List.mem_cons_self ..)

/-- No new symbols are needed. -/
def names (o : Bool) : Names (rules o) where
  name _ _ := 0
  parts _ := none
  parts_name k A rhs j hk h2 hj := by
    rcases rules_cases hk with ⟨_, _, rfl⟩ | ⟨_, _, rfl⟩ | ⟨_, _, rfl⟩ | ⟨_, _, rfl⟩ <;> simp at hj <;> omega
  user _ _ := ⟨rfl, fun _ _ => rfl⟩

/-- The wrapped grammar. -/
def cfg (o : Bool) : Cfg where
  numSyms := 9
  rules := [wrapRoot 5, wrapBoth 5 0, { lhs := 0, rhs := [num o 1, 4], origin := some 0, dots := Example.dots3 },
    { lhs := num o 1, rhs := [num o 2], origin := some 1, dots := Example.dots3 },
    { lhs := num o 1, rhs := [3], origin := some 2, dots := Example.dots3 },
    { lhs := num o 2, rhs := [3], origin := some 3, dots := Example.dots3 }]
  wrappedRoots := [standardRoot 5 0]

theorem binarizes (o : Bool) : Binarizes (rules o) (names o) (standardRoot 5 0) 8 (cfg o) where
  sound r hr := by
    simp only [cfg, List.mem_cons, List.not_mem_nil, or_false] at hr
    rcases hr with rfl | rfl | rfl | rfl | rfl | rfl
    · exact .inl rfl
    · exact .inr (.inl rfl)
    · exact .inr (.inr (Expected.both (k := 0) (rhs := [num o 1, 4]) (j := 1) rfl (by decide) rfl))
    · exact .inr (.inr (Expected.single (k := 1) rfl))
    · exact .inr (.inr (Expected.single (k := 2) rfl))
    · exact .inr (.inr (Expected.single (k := 3) rfl))
  complete r he _ := by
    cases he with
    | single hk =>
      rcases rules_cases hk with ⟨_, _, e⟩ | ⟨rfl, rfl, e⟩ | ⟨rfl, rfl, e⟩ | ⟨rfl, rfl, e⟩
      · simp at e
      · cases e
        exact ⟨_, List.mem_of_getElem? (i := 3) rfl, rfl⟩
      · cases e
        exact ⟨_, List.mem_of_getElem? (i := 4) rfl, rfl⟩
      · cases e
        exact ⟨_, List.mem_of_getElem? (i := 5) rfl, rfl⟩
    | @both k A j y rhs dots hk hj hy =>
      rcases rules_cases hk with ⟨rfl, rfl, rfl⟩ | ⟨rfl, rfl, rfl⟩ | ⟨rfl, rfl, rfl⟩ | ⟨rfl, rfl, rfl⟩
      · match j, hj with
        | 1, _ =>
          cases hy
          exact ⟨_, List.mem_of_getElem? (i := 2) rfl, rfl⟩
        | j + 2, _ => simp at hy
      all_goals
        match j, hj with
        | j + 1, _ => simp at hy
    | dropRight _ _ _ hn => exact absurd hn (not_nullable _)
    | @dropLeft k A j y rhs dots hk hj hy hn =>
      exfalso
      match rhs, j, hj with
      | [], _, _ => simp at hy
      | s :: rhs, j + 1, _ => exact not_nullable s (hn s (by simp))
  nodup := by revert o; decide +kernel
  once := by revert o; decide +kernel
  fresh s hs := by
    revert o
    rcases hs with rfl | rfl | rfl | rfl <;> decide +kernel

theorem ok (o : Bool) : BinarizedOK (cfg o) (standardRoot 5 0) where
  len := by revert o; decide +kernel
  lhs_lt := by revert o; decide +kernel
  rhs_lt := by revert o; decide +kernel
  fresh := by
    have : ∀ r ∈ (cfg o).rules, r.rhs.length = 1 → ¬ Generated (cfg o) r.lhs ∧ ∀ s ∈ r.rhs, ¬ Generated (cfg o) s := by
      revert o; decide +kernel
    intro r hr s h
    obtain ⟨h1, h2⟩ := this r hr (by rw [h]; rfl)
    exact ⟨fun h' => absurd h' h1, fun _ h' => absurd h' (h2 s (by rw [h]; simp))⟩
  genLhs := by
    have : ∀ r₁ ∈ (cfg o).rules, ∀ r₂ ∈ (cfg o).rules, ∀ A ∈ r₁.rhs[0]?, r₂.rhs[0]? = some A → Generated (cfg o) A →
      r₁.lhs = r₂.lhs := by revert o; decide +kernel
    exact fun r₁ h₁ r₂ h₂ A hA => this r₁ h₁ r₂ h₂ A hA
  genUnary := by
    have h1 : ∀ A < 9, Generated (cfg o) A → ((cfg o).rules.countP fun r => r.rhs = [A]) ≤ 1 := by revert o; decide +kernel
    have h2 : ∀ r ∈ (cfg o).rules, r.lhs < 9 := by clear h1; revert o; decide +kernel
    intro A hA
    refine h1 A ?_ hA
    obtain ⟨_, _, _, r, hr, rfl, _⟩ := hA
    exact h2 r hr
  nested := ⟨fun s => s, by
    have : ∀ r ∈ (cfg o).rules, ∀ A ∈ r.rhs[0]?, Generated (cfg o) A → r.lhs < A := by revert o; decide +kernel
    exact fun r hr A hA => this r hr A hA⟩
  dots := by revert o; decide +kernel
  numRoots := rfl
  root := rfl
  startRule := by revert o; decide +kernel
  eofOnce := by revert o; decide +kernel
  eofNot0 := by revert o; decide +kernel
  eofTerm := by revert o; decide +kernel
  startNot := by revert o; decide +kernel
  sofUsed := by revert o; decide +kernel
  sofTerm := by revert o; decide +kernel

theorem acyclic (o : Bool) : UnaryAcyclic (rulesOf (cfg o)) := by
  refine ⟨fun s => if s = num o 1 then 0 else if s = num o 2 then 1 else 2, ?_⟩
  revert o
  decide +kernel

theorem wrapping (o : Bool) : Wrapping (rulesOf (cfg o)) (standardRoot 5 0) (UNullable (rules o) 0) := by
  refine ⟨⟨8, by revert o; decide +kernel, by revert o; decide +kernel,
    ⟨fun h => absurd h (by revert o; decide +kernel), fun h => absurd h (not_nullable 0)⟩, by revert o; decide +kernel⟩, ?_,
    by unfold Terminal; revert o; decide +kernel, by unfold Terminal; revert o; decide +kernel⟩
  rintro g0 h rfl
  revert h o
  decide +kernel

/-- The tables, computed. -/
def tables (o : Bool) : M DefaultGrammar := do
  let (c, maps) ← remapSymbols plainCrate (cfg o)
  let c := sortRulesByLhs plainCrate c
  let gensyms ← numGensyms c
  let syms ← subM c.numSyms gensyms
  let byRhs0 ← rulesByRhs0 c
  let _ ← predictionMatrix (rootOfFuel 10 byRhs0 syms) syms c
  fromProcessedWith (Build.rootOfFuel 10) c maps Example.noRules (plainCrate.firstSets c) (plainCrate.followSets c)

def grammar (o : Bool) : DefaultGrammar :=
  match tables o with
  | some (.ok g) => g
  | _ => {}

theorem tables_eq (o : Bool) : tables o = pure (grammar o) := by
  revert o
  decide +kernel

theorem made (o : Bool) : fromBinarized plainCrate (cfg o) Example.noRules = pure (grammar o) := by
  refine (?_ : Below (tables o) (fromBinarized plainCrate (cfg o) Example.noRules)) _ (tables_eq o)
  unfold tables fromBinarized traceTables
  simp only [bind_assoc, pure_bind]
  refine .bind (.refl _) fun _ => .bind (.refl _) fun _ => .bind (.refl _) fun _ => .bind (.refl _) fun _ => .bind ?_ fun _ =>
    fromProcessed_below 10 _ _ _ _ _
  exact Below.bind (Below.foldlM (fun m r => Below.bind (.refl _) fun r0 => Below.ite (Below.bind (loopFuel_below _ 10 _)
      fun _ => .refl _) (.refl _)) _ _) fun _ => .refl _

theorem parser (o : Bool) : UserParser plainCrate (rules o) (names o) (standardRoot 5 0) 8 (cfg o) Example.noRules (grammar o) :=
  ⟨⟨plainCrate_ok, ok o, made o, binarizes o, wrapping o, by revert o; decide +kernel, by revert o; decide +kernel⟩, acyclic o⟩

theorem kept (o : Bool) : EmptyKept (rules o) (names o) (cfg o) Example.noRules (grammar o) := by
  refine ⟨⟨?_, ?_⟩, ?_, ?_⟩
  · intro r hr
    cases hr
  · intro k A rhs j y hk hj hlt hy h
    exfalso
    match rhs, hlt with
    | s :: rhs, _ => exact not_nullable s (h s (by simp))
  · intro r hr
    cases hr
  · have : ∀ r ∈ (cfg o).rules, r.nullable = none := by revert o; decide +kernel
    intro r hr p hp
    rw [this r hr] at hp
    cases hp

theorem internal (o : Bool) {s : Nat} (hs : s < 5) : (grammar o).toInternal s = pure (some (s + 1)) := by
  have hl : (do let p ← remapSymbols plainCrate (cfg o); pure p.2.toInternal : M _) =
      pure [some 1, some 2, some 3, some 4, some 5, some 6, some 7, some 0, some 8] := by revert o; decide +kernel
  refine Calculator.Precedenced.toInternal_of (made o) hl (by simp) ?_
  match s, hs with
  | 0, _ | 1, _ | 2, _ | 3, _ | 4, _ => rfl

theorem down (o : Bool) : UnaryDown (cfg o) (grammar o) ↔ o = true := by
  have h1 : (∀ r ∈ (cfg o).rules, ∀ B ∈ r.rhs[0]?, r.rhs.length = 1 → r.lhs < 5 ∧ B < 5 ∧ (o = true → r.lhs < B)) := by
    revert o; decide +kernel
  have h0 : ∀ o, num o 1 < 5 ∧ num o 2 < 5 ∧ (num o 1 + 1 < num o 2 + 1 → o = true) := by decide
  constructor
  · intro h
    exact (h0 o).2.2 (h _ (List.mem_of_getElem? (i := 3) rfl) _ rfl (num o 1 + 1) (num o 2 + 1) (internal o (h0 o).1)
      (internal o (h0 o).2.1))
  · intro ho r hr B hB x y hx hy
    obtain ⟨h2, h3, h4⟩ := h1 r hr B (by rw [hB]; rfl) (by rw [hB]; rfl)
    cases pure_inj_M ((internal o h2).symm.trans hx)
    cases pure_inj_M ((internal o h3).symm.trans hy)
    have := h4 ho
    omega

/-- One tree for `X` over the first token of `a b`, and one for `b` over the second: the number of values that C58 asks for is one. -/
theorem one_value {α : Type} {o : Bool} {ev : Evaluator α} {nul : Nat → α} {vs : List α} {k : Nat}
    (h : UVals (rules o) ev nul (tokInput [3, 4]) 0 0 2 vs k) : vs.length = 1 := by
  have num0 : ∀ o, num o 1 ≠ 0 ∧ num o 2 ≠ 0 ∧ num o 1 ≠ 4 ∧ num o 2 ≠ 4 := by decide
  obtain ⟨l, h1, h2, h3⟩ := C58_number h (by omega) (by simp [tokInput])
  rw [← h2]
  have : l.Perm [(0, 1)] := by
    rw [List.perm_ext_iff_of_nodup h1 (by simp)]
    rintro ⟨k, p⟩
    rw [h3, List.mem_singleton]
    constructor
    · rintro ⟨ss, y, ts, t, hk, hkids, ht⟩
      rcases rules_cases hk with ⟨rfl, _, e⟩ | ⟨_, e, _⟩ | ⟨_, e, _⟩ | ⟨_, e, _⟩
      · obtain ⟨rfl, rfl⟩ := List.append_singleton_inj (bs := [num o 1]) |>.1 e
        cases ht with
        | leaf hm => rfl
        | empty hn => exact absurd hn (not_nullable _)
        | node hk _ _ =>
          rcases rules_cases hk with ⟨_, e, _⟩ | ⟨_, e, _⟩ | ⟨_, e, _⟩ | ⟨_, e, _⟩
          · simp at e
          · exact absurd e.symm (num0 o).2.2.1
          · exact absurd e.symm (num0 o).2.2.1
          · exact absurd e.symm (num0 o).2.2.2
      · exact absurd e.symm (num0 o).1
      · exact absurd e.symm (num0 o).1
      · exact absurd e.symm (num0 o).2.1
    · intro e
      cases e
      exact ⟨[num o 1], 4, _, _, rfl, .cons (.node (k := 2) (rhs := [3]) rfl (.cons (.leaf (v := 0) (by simp [tokInput])) .nil) (by omega)) .nil,
        .leaf (v := 1) (by simp [tokInput])⟩
  rw [this.length_eq]
  rfl

/-- Values of `a b` with the simple bocage, computed. -/
def runSimple (o : Bool) : M (Except ParseError Bool × List Nat) := do
  let b ← Simple.Bocage.new (grammar o).forestInfo
  let E : Env Simple.Bocage Nat := { g := grammar o, F := Simple.forest, sorter := Example.sorter }
  let s ← Rec.new E b
  let (s, r) ← Rec.parseWith E (Rec.completeAllFuel E 50) s [3, 4]
  let x ← Rec.finishedNode E s
  let x ← unwrapM x
  let (_, v) ← s.forest.evaluateFuel 100 Pairs.arguments x
  pure (r, v)

/-- Values of `a b` with the compact bocage, computed. -/
def runCompact (o : Bool) : M (Except ParseError Bool × List Nat) := do
  let b ← Compact.Bocage.new (grammar o).forestInfo
  let E : Env Compact.Bocage Nat := { g := grammar o, F := Compact.forest, sorter := Example.sorter }
  let s ← Rec.new E b
  let (s, r) ← Rec.parseWith E (Rec.completeAllFuel E 50) s [3, 4]
  let x ← Rec.finishedNode E s
  let x ← unwrapM x
  let (_, v) ← s.forest.evaluateFuel 100 Pairs.arguments x
  pure (r, v)

theorem runs (o : Bool) : runSimple o = pure (.ok true, if o then [3] else [2, 2]) ∧
    runCompact o = pure (.ok true, if o then [3] else [2, 2]) := by
  revert o
  decide +kernel

/-- The values of `a b` with the simple bocage. -/
noncomputable def valuesSimple (o : Bool) : M (Except ParseError Bool × List Nat) := do
  let b ← Simple.Bocage.new (grammar o).forestInfo
  let E : Env Simple.Bocage Nat := { g := grammar o, F := Simple.forest, sorter := Example.sorter }
  let s ← Rec.new E b
  let (s, r) ← Rec.parse E s [3, 4]
  let x ← Rec.finishedNode E s
  let x ← unwrapM x
  let (_, v) ← s.forest.evaluate Pairs.arguments x
  pure (r, v)

/-- The values of `a b` with the compact bocage. -/
noncomputable def valuesCompact (o : Bool) : M (Except ParseError Bool × List Nat) := do
  let b ← Compact.Bocage.new (grammar o).forestInfo
  let E : Env Compact.Bocage Nat := { g := grammar o, F := Compact.forest, sorter := Example.sorter }
  let s ← Rec.new E b
  let (s, r) ← Rec.parse E s [3, 4]
  let x ← Rec.finishedNode E s
  let x ← unwrapM x
  let (_, v) ← s.forest.evaluate Pairs.arguments x
  pure (r, v)

/-- C58 needs the order of one-symbol rules, and `from_grammar` does not establish it. The grammar `S ::= X b`, `X ::= Y | a`,
`Y ::= a` gets a parser for either order of its symbols. For `a b`, C58 asks for one value of `S` (one rule, and one start of its
last symbol). If `X` comes before `Y`, the rule is applied once, to three arguments: the two values of `X` and that of `b`. If `Y`
comes before `X`, it is applied twice, to two arguments each. -/
theorem _root_.Gearley.Props.C58_needs_order (o : Bool) :
    UserParser plainCrate (rules o) (names o) (standardRoot 5 0) 8 (cfg o) Example.noRules (grammar o) ∧
    EmptyKept (rules o) (names o) (cfg o) Example.noRules (grammar o) ∧ (UnaryDown (cfg o) (grammar o) ↔ o = true) ∧
    (∀ ev nul (vs : List Nat) k, UVals (rules o) ev nul (tokInput [3, 4]) 0 0 2 vs k → vs.length = 1) ∧
    valuesSimple o = pure (.ok true, if o then [3] else [2, 2]) ∧ valuesCompact o = pure (.ok true, if o then [3] else [2, 2]) := by
  refine ⟨parser o, kept o, down o, fun _ _ _ _ h => one_value h, ?_, ?_⟩
  · refine (?_ : Below (runSimple o) (valuesSimple o)) _ (runs o).1
    exact .bind (.refl _) fun _ => .bind (.refl _) fun _ => .bind (Rec.parse_below _ _ _) fun _ => .bind (.refl _) fun _ =>
      .bind (.refl _) fun _ => .bind (Simple.evaluate_below _ _ _ _) fun _ => .refl _
  · refine (?_ : Below (runCompact o) (valuesCompact o)) _ (runs o).2
    exact .bind (.refl _) fun _ => .bind (.refl _) fun _ => .bind (Rec.parse_below _ _ _) fun _ => .bind (.refl _) fun _ =>
      .bind (.refl _) fun _ => .bind (Compact.evaluate_below _ _ _ _) fun _ => .refl _

/-! ### The grammar in the parser's numbers -/

/-- The processed grammar if `Y` comes first. Symbols: 0 eof, 1 S, 2 Y, 3 X, 4 a, 5 b, 6 root, 7 sof, 8 g0. -/
def inner : Cfg where
  numSyms := 9
  rules := [{ lhs := 1, rhs := [3, 5], origin := some 0, dots := Example.dots3 },
    { lhs := 2, rhs := [4], origin := some 3, dots := Example.dots3 },
    { lhs := 3, rhs := [2], origin := some 1, dots := Example.dots3 },
    { lhs := 3, rhs := [4], origin := some 2, dots := Example.dots3 },
    { lhs := 6, rhs := [8, 0], dots := Example.dots3 },
    { lhs := 8, rhs := [7, 1], dots := Example.dots3 }]
  wrappedRoots := [⟨6, 7, 0, 1⟩]

-- this is what `from_grammar` makes of it
example : (do let p ← remapSymbols plainCrate (cfg false); pure (sortRulesByLhs plainCrate p.1) : M _) = pure inner := by
  decide +kernel

def root : WrappedRoot := ⟨6, 7, 0, 1⟩

theorem processed : ProcessedOK inner 8 root (fun A => if A = 8 then 7 else 0) where
  len := by decide
  lhs_lt := by decide
  rhs_lt := by decide
  sorted := by decide
  syms_le := by decide
  gen := by decide
  genLhs := by decide
  genUnary := by
    intro A h1 h2
    have : ∀ A, A < 9 → 8 ≤ A → (inner.rules.countP fun r => r.rhs = [A]) ≤ 1 := by decide
    exact this A h2 h1
  depth := by decide
  dots := by decide
  numRoots := rfl
  root := rfl
  start_lt := by decide
  eof_lt := by decide
  startRule := by decide
  eofOnce := by decide
  eofNot0 := by decide
  eofTerm := by decide
  eofMin := by decide
  startNot := by decide

/-- The numbers of the parser. -/
def maps : Mapping :=
  match remapSymbols plainCrate (cfg false) with
  | some (.ok p) => p.2
  | _ => {}

theorem tables_inner : fromProcessed inner maps Example.noRules (plainCrate.firstSets inner) (plainCrate.followSets inner) =
    pure (grammar false) := by
  refine fromProcessed_below 10 _ _ _ _ _ _ ?_
  decide +kernel

theorem built : Built inner 8 root (grammar false) where
  processed := ⟨_, processed⟩
  acyclic := ⟨fun A => if A = 3 then 0 else if A = 2 then 1 else 2, by decide⟩
  tables := ⟨_, _, _, _, tables_inner, FirstClosed.ok (by decide) 8,
    FollowClosed.ok (first := plainCrate.firstSets inner) (by decide) (by decide) 8 6⟩
  sof_lt := by decide
  sofTerm := by unfold Terminal; decide

-- the only hypothesis of C42, C44 and C45 that fails is the order
theorem not_ordered : ¬ UnaryOrdered (rulesOf inner) := by unfold UnaryOrdered; decide

/-- `a b` after the start marker. -/
def steps : List Step := [(.keep, [(7, 0)]), (.keep, [(4, 1)]), (.keep, [(5, 2)])]

theorem steps_ok : TokensOK inner.numSyms steps ∧ HintsIn 8 steps ∧ steps.length + 1 < 2 ^ 64 ∧
    ∀ st ∈ steps, (st.2.map (·.1)).Nodup ∧ Terminals inner 8 (st.2.map (·.1)) := by
  refine ⟨by unfold TokensOK; decide, ?_, by decide, by unfold Terminals Terminal; decide⟩
  intro st hst x hx
  simp only [steps, List.mem_cons, List.not_mem_nil, or_false] at hst
  rcases hst with rfl | rfl | rfl <;> cases hx

def simpleEnv : Env Simple.Bocage Nat := { g := grammar false, F := Simple.forest, sorter := Example.sorter }
def compactEnv : Env Compact.Bocage Nat := { g := grammar false, F := Compact.forest, sorter := Example.sorter }

theorem good {σ : Type} {E : Env σ Nat} (hg : E.g = grammar false) (hleo : E.leo = false) : GoodParse E inner 8 root False steps 8 :=
  PlainParse.good {
    prepared := hg ▸ built.toPrepared
    leo := hleo
    rules32 := by decide
    syms32 := by decide
    wrapping := by
      refine ⟨⟨8, by decide⟩, ?_, by unfold Terminal; decide, by unfold Terminal; decide⟩
      rintro g0 h rfl
      revert h
      decide
    tokens := steps_ok.1
    hints := steps_ok.2.1
    ne := by decide
    len := by decide
    honest := fun _ => by
      intro i st x hst hx
      match i with
      | 0 | 1 | 2 => cases hst; cases hx
      | i + 3 => cases hst
    plain := by
      intro i
      match i with
      | 0 | 1 | 2 => exact ⟨by decide, by unfold Terminal; decide⟩
      | k + 3 => simp [inputOf, steps]
    rule := by decide } built.acyclic

theorem tree : TreeOf (rulesOf inner) (inputOf steps) (.node 5 (.pair (.leaf 7 0) (.node 0 (.pair (.node 3 (.leaf 4 1)) (.leaf 5 2))))) 8 0
    steps.length :=
  .binary (B := 7) (C := 1) rfl (.leaf (inp := inputOf steps) (i := 0) (v := 0) (by decide))
    (.binary (B := 3) (C := 5) rfl (.unary (B := 4) rfl (.leaf (inp := inputOf steps) (i := 1) (v := 1) (by decide)))
      (.leaf (inp := inputOf steps) (i := 2) (v := 2) (by decide)))

theorem accepts : Accepts (rulesOf inner) 8 steps := (good (E := simpleEnv) rfl rfl).accepts tree

theorem once : WrappedOnce (rulesOf inner) root 8 := by
  have : ∀ d : Nat, (rulesOf inner)[d]? = some (Rule.mk 8 root.sof (some root.innerRoot)) → d = 5 := by
    intro d h
    match d with
    | 0 | 1 | 2 | 3 | 4 => revert h; decide
    | 5 => rfl
    | d + 6 => cases h
  intro d d' h h'
  rw [this d h, this d' h']

/-! ### C42 -/

/-- The current set after `a`. -/
noncomputable def current (so : Sorter) : M (List (Nat × Nat × Nat)) := do
  let b ← Simple.Bocage.new (grammar false).forestInfo
  let s ← Rec.new (simpleEnv.withSort so) b
  let (s, _) ← Rec.session (simpleEnv.withSort so) (steps.take 2) s
  let l ← s.medial.last
  pure (l.map fun it => (it.dot, it.origin, it.node))

def currentFuel (so : Sorter) : M (List (Nat × Nat × Nat)) := do
  let b ← Simple.Bocage.new (grammar false).forestInfo
  let s ← Rec.new (simpleEnv.withSort so) b
  let (s, _) ← Rec.sessionWith (simpleEnv.withSort so) (Rec.completeAllFuel (simpleEnv.withSort so) 50) (steps.take 2) s
  let l ← s.medial.last
  pure (l.map fun it => (it.dot, it.origin, it.node))

/-- C42 needs the order of one-symbol rules: after `a` the current set has two items with the same key, and which of them comes
first depends on the sort. -/
theorem _root_.Gearley.Props.C42_needs_order : current Example.sorter = pure [(0, 1, 3), (0, 1, 5)] ∧
    current otherSorter = pure [(0, 1, 5), (0, 1, 3)] := by
  have h : ∀ so, Below (currentFuel so) (current so) := fun so =>
    .bind (.refl _) fun _ => .bind (.refl _) fun _ => .bind (Rec.session_below _ _ _) fun _ => .refl _
  exact ⟨h _ _ (by decide +kernel), h _ _ (by decide +kernel)⟩

/-! ### C44 and C45 -/

def pipeSimple := pipe simpleEnv (Simple.Bocage.new (grammar false).forestInfo) (fun b => b.evaluateFuel 100 Pairs.arguments) steps
def pipeCompact := pipe compactEnv (Compact.Bocage.new (grammar false).forestInfo) (fun b => b.evaluateFuel 100 Pairs.arguments) steps

def graphSimple : List Simple.Node := [.nullingLeaf 0, .leaf 7 0, .leaf 4 1, .product 3 2, .product 1 2, .product 2 4, .leaf 5 2, .rule 3 6,
  .rule 5 6, .sum 1 2, .product 0 8, .product 0 7, .rule 1 9, .product 5 12]

def graphCompact : List Nat := [126, 0, 0, 0, 0, 0, 0, 0, 0, 5, 7, 0, 5, 4, 1, 0, 3, 3, 12, 1, 0, 3, 1, 12, 1, 0, 3, 2, 21, 1, 5, 5,
  2, 4, 16, 30, 4, 26, 30, 0, 3, 0, 33, 3, 0, 36, 1, 4, 9, 39, 0, 3, 5, 47, 1]

theorem simple_eq : (do let (_, r, x, y) ← pipeSimple; pure (r.2, r.1.forest.graph, x, y.2) : M _) = pure (true, graphSimple, 13, [2, 2]) := by
  decide +kernel

theorem compact_eq : (do let (_, r, x, y) ← pipeCompact; pure (r.2, r.1.forest.graph, x, y.2) : M _) = pure (true, graphCompact, 51, [2, 2]) := by
  decide +kernel

/-- The only split of `S ::= X b`. -/
theorem split {i m : Nat} (h : Alternative (rulesOf inner) (inputOf steps) 1 i 3 0 m) : m = 2 := by
  rcases h with ⟨B, h, _⟩ | ⟨B, C, h, _, t, ht⟩
  · cases h
  · cases h
    cases ht with
    | leaf _ => rfl
    | unary h _ | binary h _ _ =>
      have := List.mem_of_getElem? h
      simp [rulesOf, inner, ruleOf] at this

theorem not_packs {V : Nat → View → Prop} (hV : ∀ h a b, V h a → V h b → a = b) {x f l r p q : Nat} (h1 : V x (.alts [(5, f)]))
    (h2 : V f (.rule l r)) (h3 : V r (.alts [(0, p), (0, q)])) :
    ¬ Packs V (rulesOf inner) (inputOf steps) 8 0 3 x := by
  intro hp
  cases hp with
  | node as hv _ _ _ _ _ _ hr =>
    obtain ⟨m, hm⟩ : ∃ m, (5, m, f) ∈ as := by
      have e := hV _ _ _ hv h1
      simp only [View.alts.injEq] at e
      have : ((5, f) : Nat × Nat) ∈ as.map fun a => (a.1, a.2.2) := by rw [e]; simp
      obtain ⟨⟨d, m, f'⟩, hm, e⟩ := List.mem_map.1 this
      cases e
      exact ⟨m, hm⟩
    have hS := hr 5 m f 7 1 l r hm rfl h2
    obtain ⟨ms, hl, hn, ha⟩ := C44_no_duplicates hV hS h3
    match ms, hl with
    | [m1, m2], _ =>
      have e1 := split ((ha 0 m1).1 (by simp))
      have e2 := split ((ha 0 m2).1 (by simp))
      subst e1 e2
      simp at hn

/-- C44 needs the order of one-symbol rules, simple bocage: after `a b` the node of `S` has the same rule with the same split twice.
All other hypotheses of `C44_packed_simple` hold. -/
theorem _root_.Gearley.Props.C44_needs_order_simple : GoodParse simpleEnv inner 8 root False steps 8 ∧ Accepts (rulesOf inner) 8 steps ∧
    ¬ UnaryOrdered (rulesOf inner) ∧ ∃ b r x, Simple.Bocage.new (grammar false).forestInfo = pure b ∧
      (Rec.new simpleEnv b >>= Rec.session simpleEnv steps) = pure r ∧ r.2 = true ∧ Rec.finishedNode simpleEnv r.1 = pure (some x) ∧
      r.1.forest.graph.length < 2 ^ 32 ∧
      ¬ Packs (Simple.HasView r.1.forest.graph) (rulesOf inner) (inputOf steps) 8 0 steps.length x := by
  refine ⟨good rfl rfl, accepts, not_ordered, ?_⟩
  obtain ⟨⟨b, r, x, y⟩, h1, h2⟩ := bind_eq_pure simple_eq
  obtain ⟨h3, h4, h5, _⟩ := pipe_spec h1
  have h2 := pure_inj_M h2
  simp only [Prod.mk.injEq] at h2
  obtain ⟨e1, e2, rfl, e4⟩ := h2
  refine ⟨b, r, 13, h3, h4, e1, h5, by rw [e2]; decide, ?_⟩
  rw [e2]
  refine not_packs (f := 12) (l := 1) (r := 9) (p := 8) (q := 7) (V := Simple.HasView graphSimple)
    (fun _ _ _ => Simple.HasView.det) (.product rfl) (.rule rfl) (.sum (nt := 1) (as := [(0, 8), (0, 7)]) rfl (by decide) ?_)
  intro i hi
  match i, hi with
  | 0, _ | 1, _ => rfl

/-- C44 needs the order of one-symbol rules, compact bocage. -/
theorem _root_.Gearley.Props.C44_needs_order_compact : GoodParse compactEnv inner 8 root False steps 8 ∧ Accepts (rulesOf inner) 8 steps ∧
    ¬ UnaryOrdered (rulesOf inner) ∧ ∃ b r x, Compact.Bocage.new (grammar false).forestInfo = pure b ∧
      (Rec.new compactEnv b >>= Rec.session compactEnv steps) = pure r ∧ r.2 = true ∧ Rec.finishedNode compactEnv r.1 = pure (some x) ∧
      r.1.forest.graph.length < 2 ^ 32 ∧
      ¬ Packs (Compact.HasView r.1.forest.graph) (rulesOf inner) (inputOf steps) 8 0 steps.length x := by
  refine ⟨good rfl rfl, accepts, not_ordered, ?_⟩
  obtain ⟨⟨b, r, x, y⟩, h1, h2⟩ := bind_eq_pure compact_eq
  obtain ⟨h3, h4, h5, _⟩ := pipe_spec h1
  have h2 := pure_inj_M h2
  simp only [Prod.mk.injEq] at h2
  obtain ⟨e1, e2, rfl, e4⟩ := h2
  refine ⟨b, r, 51, h3, h4, e1, h5, by rw [e2]; decide, ?_⟩
  rw [e2]
  refine not_packs (f := 47) (l := 9) (r := 39) (p := 33) (q := 36) (V := Compact.HasView graphCompact)
    (fun _ _ _ => Compact.HasView.det) ?_ ?_ ?_
  · exact .single (.summand (s := 3) (by decide +kernel) (by decide +kernel) (.done (by decide +kernel)))
  · exact .rule (by decide +kernel)
  · exact .beginSum (by decide +kernel) (by decide) (.summand (s := 3) (by decide +kernel) (by decide +kernel)
      (.summand (s := 3) (by decide +kernel) (by decide +kernel) (.done (by decide +kernel))))

/-- C45 needs the order of one-symbol rules: evaluation returns two values, although the values of every packed forest of `S` are a
single one. -/
theorem _root_.Gearley.Props.C45_needs_order :
    (∃ b r x b', Simple.Bocage.new (grammar false).forestInfo = pure b ∧
      (Rec.new simpleEnv b >>= Rec.session simpleEnv steps) = pure r ∧ Rec.finishedNode simpleEnv r.1 = pure (some x) ∧
      r.1.forest.evaluate Pairs.arguments x = pure (b', [2, 2])) ∧
    (∃ b r x b', Compact.Bocage.new (grammar false).forestInfo = pure b ∧
      (Rec.new compactEnv b >>= Rec.session compactEnv steps) = pure r ∧ Rec.finishedNode compactEnv r.1 = pure (some x) ∧
      r.1.forest.evaluate Pairs.arguments x = pure (b', [2, 2])) ∧
    ∀ nv nc u N, PackedVals (grammar false).forestInfo Pairs.arguments nv nc (rulesOf inner) (inputOf steps) root.innerRoot 1 steps.length u N →
      u.length = 1 := by
  refine ⟨?_, ?_, ?_⟩
  · obtain ⟨⟨b, r, x, y⟩, h1, h2⟩ := bind_eq_pure simple_eq
    obtain ⟨h3, h4, h5, h6⟩ := pipe_spec h1
    have h2 := pure_inj_M h2
    simp only [Prod.mk.injEq] at h2
    obtain ⟨e1, e2, e3, e4⟩ := h2
    exact ⟨b, r, x, y.1, h3, h4, h5, by rw [← e4]; exact Simple.evaluate_below _ _ _ _ _ h6⟩
  · obtain ⟨⟨b, r, x, y⟩, h1, h2⟩ := bind_eq_pure compact_eq
    obtain ⟨h3, h4, h5, h6⟩ := pipe_spec h1
    have h2 := pure_inj_M h2
    simp only [Prod.mk.injEq] at h2
    obtain ⟨e1, e2, e3, e4⟩ := h2
    exact ⟨b, r, x, y.1, h3, h4, h5, by rw [← e4]; exact Compact.evaluate_below _ _ _ _ _ h6⟩
  · intro nv nc u N hp
    have he : (grammar false).forestInfo.eval = [some 0, some 3, some 1, some 2, none, none] := by decide +kernel
    obtain ⟨l, h1, h2, h3⟩ := C45_one_value_per_alternative hp (by
      intro d r h1 h2
      unfold ForestInfo.origin
      rw [he]
      match d with
      | 0 => exact ⟨_, rfl⟩
      | 1 | 2 | 3 | 4 | 5 => cases h1; cases h2
      | d + 6 => cases h1) (by simp [inputOf, steps, root])
    rw [h3]
    have : l.Perm [(0, 2)] := by
      rw [List.perm_ext_iff_of_nodup h1 (by simp)]
      rintro ⟨d, m⟩
      rw [h2, List.mem_singleton]
      constructor
      · intro h
        have hd : d = 0 := by
          rcases h with ⟨B, h, _⟩ | ⟨B, C, h, _⟩
          all_goals
            match d with
            | 0 => rfl
            | 1 | 2 | 3 | 4 | 5 => cases h
            | d + 6 => cases h
        subst hd
        rw [split h]
      · intro e
        cases e
        exact .inr ⟨3, 5, rfl, ⟨_, .unary (d := 3) (B := 4) rfl (.leaf (inp := inputOf steps) (i := 1) (v := 1) (by decide))⟩,
          ⟨_, .leaf (inp := inputOf steps) (i := 2) (v := 2) (by decide)⟩⟩
    rw [this.length_eq]
    rfl

/-! ### C57 -/

theorem input_cases {a v i : Nat} (h : (a, v) ∈ inputOf steps i) : (i = 0 ∧ a = 7 ∧ v = 0) ∨ (i = 1 ∧ a = 4 ∧ v = 1) ∨
    (i = 2 ∧ a = 5 ∧ v = 2) := by
  match i with
  | 0 | 1 | 2 => simpa [inputOf, steps] using h
  | i + 3 => simp [inputOf, steps] at h

theorem inner_cases {d A B : Nat} {C : Option Nat} (h : (rulesOf inner)[d]? = some ⟨A, B, C⟩) :
    (d = 0 ∧ A = 1 ∧ B = 3 ∧ C = some 5) ∨ (d = 1 ∧ A = 2 ∧ B = 4 ∧ C = none) ∨ (d = 2 ∧ A = 3 ∧ B = 2 ∧ C = none) ∨
      (d = 3 ∧ A = 3 ∧ B = 4 ∧ C = none) ∨ (d = 4 ∧ A = 6 ∧ B = 8 ∧ C = some 0) ∨ (d = 5 ∧ A = 8 ∧ B = 7 ∧ C = some 1) := by
  match d with
  | 0 | 1 | 2 | 3 | 4 | 5 => cases h; simp
  | d + 6 => cases h

theorem tree_a : TreeOf (rulesOf inner) (inputOf steps) (.leaf 4 1) 4 1 2 := .leaf (i := 1) (by decide)

theorem removed_none (d : Nat) : (grammar false).forestInfo.removed d = none := by
  have h : ∀ x ∈ (grammar false).forestInfo.nullingEliminated, x = none := by decide +kernel
  unfold ForestInfo.removed
  cases e : (grammar false).forestInfo.nullingEliminated[d]? with
  | none => rfl
  | some x => rw [h x (List.mem_of_getElem? e)]; rfl

/-- The rounds for a packed forest of `S`: two for the alternatives of each of `S`, `X` and `Y`, and so on. -/
theorem packed_rounds (extra nr : Nat → Nat) : PackedWork extra nr (grammar false).forestInfo (rulesOf inner) (inputOf steps) 1 1 3
    (14 + extra 2 + 2 * extra 1) := by
  have hrem := removed_none
  have hY : PackedWork extra nr (grammar false).forestInfo (rulesOf inner) (inputOf steps) 2 1 2 (3 + extra 1) := by
    have := PackedWork.node (extra := extra) (nr := nr) (info := (grammar false).forestInfo) (R := rulesOf inner)
      (inp := inputOf steps) (A := 2) (i := 1) (j := 2) [⟨1, 2, 1, 0⟩] (by simp) (by
        intro d m
        simp only [List.map_cons, List.map_nil, List.mem_singleton, Prod.mk.injEq]
        constructor
        · rintro ⟨rfl, rfl⟩
          exact .inl ⟨4, rfl, rfl, _, tree_a⟩
        · rintro (⟨B, h, rfl, _⟩ | ⟨B, C, h, _⟩) <;> have := inner_cases h <;> simp at this
          exact ⟨this.1, rfl⟩) (by simp) (by
        intro a ha B h
        cases List.mem_singleton.1 ha
        cases h
        exact .leaf (v := 1) (i := 1) (by decide)) (by
        intro a ha B C h
        cases List.mem_singleton.1 ha
        cases h) (by
        intro a ha B C h
        cases List.mem_singleton.1 ha
        cases h)
    simpa [WorkAlt.rounds, hrem, rulesOf, inner, ruleOf] using this
  have hX : PackedWork extra nr (grammar false).forestInfo (rulesOf inner) (inputOf steps) 3 1 2 (8 + extra 1 + extra 2) := by
    have := PackedWork.node (extra := extra) (nr := nr) (info := (grammar false).forestInfo) (R := rulesOf inner)
      (inp := inputOf steps) (A := 3) (i := 1) (j := 2) [⟨2, 2, 3 + extra 1, 0⟩, ⟨3, 2, 1, 0⟩] (by simp) (by
        intro d m
        simp only [List.map_cons, List.map_nil, List.mem_cons, List.not_mem_nil, or_false, Prod.mk.injEq]
        constructor
        · rintro (⟨rfl, rfl⟩ | ⟨rfl, rfl⟩)
          · exact .inl ⟨2, rfl, rfl, _, .unary (d := 1) rfl tree_a⟩
          · exact .inl ⟨4, rfl, rfl, _, tree_a⟩
        · rintro (⟨B, h, rfl, _⟩ | ⟨B, C, h, _⟩) <;> have := inner_cases h <;> simp at this
          omega) (by simp) (by
        intro a ha B h
        simp only [List.mem_cons, List.not_mem_nil, or_false] at ha
        rcases ha with rfl | rfl
        · cases h
          exact hY
        · cases h
          exact .leaf (v := 1) (i := 1) (by decide)) (by
        intro a ha B C h
        simp only [List.mem_cons, List.not_mem_nil, or_false] at ha
        rcases ha with rfl | rfl <;> cases h) (by
        intro a ha B C h
        simp only [List.mem_cons, List.not_mem_nil, or_false] at ha
        rcases ha with rfl | rfl <;> cases h)
    simp [WorkAlt.rounds, hrem, rulesOf, inner, ruleOf] at this
    rwa [show 3 + extra 1 + 2 + 3 + extra 2 = 8 + extra 1 + extra 2 by omega] at this
  have := PackedWork.node (extra := extra) (nr := nr) (info := (grammar false).forestInfo) (R := rulesOf inner)
    (inp := inputOf steps) (A := 1) (i := 1) (j := 3) [⟨0, 2, 8 + extra 1 + extra 2, 1⟩] (by simp) (by
      intro d m
      simp only [List.map_cons, List.map_nil, List.mem_singleton, Prod.mk.injEq]
      constructor
      · rintro ⟨rfl, rfl⟩
        exact .inr ⟨3, 5, rfl, ⟨_, .unary (d := 3) rfl tree_a⟩, ⟨_, .leaf (inp := inputOf steps) (i := 2) (v := 2) (by decide)⟩⟩
      · intro h
        have hd : d = 0 := by
          rcases h with ⟨B, h, _⟩ | ⟨B, C, h, _⟩ <;> have := inner_cases h <;> simp at this
          exact this.1
        subst hd
        exact ⟨rfl, split h⟩) (by simp) (by
      intro a ha B h
      cases List.mem_singleton.1 ha
      cases h) (by
      intro a ha B C h
      cases List.mem_singleton.1 ha
      cases h
      exact hX) (by
      intro a ha B C h
      cases List.mem_singleton.1 ha
      cases h
      exact .leaf (v := 2) (i := 2) (by decide))
  simp [WorkAlt.rounds, rulesOf, inner, ruleOf] at this
  rwa [show 8 + extra 1 + extra 2 + 1 + 5 + extra 1 = 14 + extra 2 + 2 * extra 1 by omega] at this

theorem rounds_eq : (pipeSimple >>= fun (_, r, x, _) => pure ((r.1.forest.evaluateFuel 23 Pairs.arguments x).isNone,
      (r.1.forest.evaluateFuel 24 Pairs.arguments x).isNone)) = pure (true, false) ∧
    (pipeCompact >>= fun (_, r, x, _) => pure ((r.1.forest.evaluateFuel 25 Pairs.arguments x).isNone,
      (r.1.forest.evaluateFuel 26 Pairs.arguments x).isNone)) = pure (true, false) := by
  constructor <;> decide +kernel

/-- C57 needs the order of one-symbol rules: every packed forest of `S` takes 17 rounds, or 18 for the compact bocage. The finished
nodes of the parser take 23 and 25. -/
theorem _root_.Gearley.Props.C57_needs_order :
    (∃ b r x, Simple.Bocage.new (grammar false).forestInfo = pure b ∧
      (Rec.new simpleEnv b >>= Rec.session simpleEnv steps) = pure r ∧ Rec.finishedNode simpleEnv r.1 = pure (some x) ∧
      r.1.forest.evaluateFuel 23 Pairs.arguments x = diverge ∧ r.1.forest.evaluateFuel 24 Pairs.arguments x ≠ diverge) ∧
    (∃ b r x, Compact.Bocage.new (grammar false).forestInfo = pure b ∧
      (Rec.new compactEnv b >>= Rec.session compactEnv steps) = pure r ∧ Rec.finishedNode compactEnv r.1 = pure (some x) ∧
      r.1.forest.evaluateFuel 25 Pairs.arguments x = diverge ∧ r.1.forest.evaluateFuel 26 Pairs.arguments x ≠ diverge) ∧
    ∀ nr k, (PackedWork Simple.extra nr (grammar false).forestInfo (rulesOf inner) (inputOf steps) root.innerRoot 1 steps.length k ↔
        k = 17) ∧
      (PackedWork Compact.extra nr (grammar false).forestInfo (rulesOf inner) (inputOf steps) root.innerRoot 1 steps.length k ↔
        k = 18) := by
  have hpl := (good (E := simpleEnv) rfl rfl).plain
  refine ⟨?_, ?_, fun nr k => ⟨⟨fun h => C57_unique hpl h (packed_rounds Simple.extra nr), fun h => h ▸ packed_rounds Simple.extra nr⟩,
    ⟨fun h => C57_unique hpl h (packed_rounds Compact.extra nr), fun h => h ▸ packed_rounds Compact.extra nr⟩⟩⟩
  · obtain ⟨⟨b, r, x, y⟩, h1, h2⟩ := bind_eq_pure rounds_eq.1
    obtain ⟨h3, h4, h5, h6⟩ := pipe_spec h1
    have h2 := pure_inj_M h2
    simp only [Prod.mk.injEq] at h2
    exact ⟨b, r, x, h3, h4, h5, Option.isNone_iff_eq_none.1 h2.1, fun h => by rw [h] at h2; cases h2.2⟩
  · obtain ⟨⟨b, r, x, y⟩, h1, h2⟩ := bind_eq_pure rounds_eq.2
    obtain ⟨h3, h4, h5, h6⟩ := pipe_spec h1
    have h2 := pure_inj_M h2
    simp only [Prod.mk.injEq] at h2
    exact ⟨b, r, x, h3, h4, h5, Option.isNone_iff_eq_none.1 h2.1, fun h => by rw [h] at h2; cases h2.2⟩

end TwoNodes
end Gearley.Props
