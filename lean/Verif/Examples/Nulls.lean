import Verif.Examples.Conformance

/-!
# A removed symbol with nested empty derivations

The grammar `start ::= a b c d foo`, `a ::= ε`, …, `d ::= ε` of gearley/tests/test_nulling.rs:48-217, defined in
Examples/Conformance.lean, meets the conditions on processed grammars.
-/

namespace Gearley.Example.Nulls
open Gearley.Spec Gearley.Props Gearley.Example Gearley.Example.Conformance

def wrap : WrappedRoot := ⟨2, 1, 0, 3⟩

def first : List (Nat × List Nat) := [(2, [1]), (3, [4]), (12, [1])]
def follow : List (Nat × List Nat) := [(3, [0]), (4, [0]), (12, [0]), (0, []), (1, [4])]

theorem processed : ProcessedOK nullsCfg 12 wrap (fun A => if A = 12 then 4 else 0) where
  len := by decide
  lhs_lt := by decide
  rhs_lt := by decide
  sorted := by decide
  syms_le := by decide
  gen := by decide
  genLhs := by decide
  genUnary := by
    intro A h1 h2
    have : ∀ A, A < 13 → (nullsCfg.rules.countP fun r => r.rhs = [A]) ≤ 1 := by decide
    exact this A h2
  depth := by decide
  dots := by decide
  numRoots := rfl
  root := rfl
  start_lt := by decide
  eof_lt := by decide
  startRule := by decide
  eofOnce := by decide
  eofNot0 := by decide
  eofTerm := by decide
  eofMin := by decide
  startNot := by decide

theorem acyclic : UnaryAcyclic (rulesOf nullsCfg) := ⟨fun A => A, by decide⟩

theorem firstOK : FirstSetsOK (rulesOf nullsCfg) 12 first := FirstClosed.ok (by decide) 12
theorem followOK : FollowSetsOK (rulesOf nullsCfg) 12 2 follow := FollowClosed.ok (first := first) (by decide) (by decide) 12 2

theorem grammar_eq : fromProcessed nullsCfg {} nullsNulling first follow = pure nulls := by
  refine fromProcessed_below 60 _ _ _ _ _ _ ?_
  decide +kernel

theorem built : Built nullsCfg 12 wrap nulls where
  processed := ⟨_, processed⟩
  acyclic := acyclic
  tables := ⟨_, _, _, _, grammar_eq, firstOK, followOK⟩
  sof_lt := by decide
  sofTerm := by unfold Terminal; decide

/-- The input `foo`. -/
def foo : List Step := [(.keep, [(1, 0)]), (.keep, [(4, 0)])]

theorem foo_plain {σ : Type} {E : Env σ Nat} (hg : E.g = nulls) (hleo : E.leo = false) :
    PlainParse E nullsCfg 12 wrap False foo 12 where
  prepared := hg ▸ built.toPrepared
  leo := hleo
  rules32 := by decide
  syms32 := by decide
  wrapping := by
    refine ⟨⟨12, by decide⟩, ?_, by unfold Terminal; decide, by unfold Terminal; decide⟩
    rintro g0 h rfl
    revert h
    decide
  tokens := by unfold TokensOK; decide
  hints := by
    intro st hst x hx
    simp only [foo, List.mem_cons, List.not_mem_nil, or_false] at hst
    rcases hst with rfl | rfl <;> cases hx
  ne := by decide
  len := by decide
  honest := fun _ => by
    intro i st x hst hx
    match i with
    | 0 | 1 => cases hst; cases hx
    | i + 2 => cases hst
  plain := by
    intro i
    match i with
    | 0 | 1 => exact ⟨by decide, by unfold Terminal; decide⟩
    | k + 2 => simp [inputOf, foo]
  rule := by decide

theorem foo_good {σ : Type} {E : Env σ Nat} (hg : E.g = nulls) (hleo : E.leo = false) :
    GoodParse E nullsCfg 12 wrap False foo 12 :=
  (foo_plain hg hleo).good built.acyclic

theorem foo_tree : TreeOf (rulesOf nullsCfg) (inputOf foo) (.node 1 (.leaf 4 0)) 3 1 2 :=
  .unary (B := 4) rfl (.leaf (by decide))

theorem foo_unique (t : PTree) : TreeOf (rulesOf nullsCfg) (inputOf foo) t 3 1 2 ↔ t = .node 1 (.leaf 4 0) := by
  refine ⟨fun h => ?_, fun h => h ▸ foo_tree⟩
  have rule3 : ∀ {d : Nat} {B C}, (rulesOf nullsCfg)[d]? = some (Rule.mk 3 B C) → d = 1 ∧ B = 4 ∧ C = none := by
    intro d B C h
    match d with
    | 0 | 2 => cases h
    | 1 => cases h; exact ⟨rfl, rfl, rfl⟩
    | d + 3 => cases h
  have rule4 : ∀ {d : Nat} {B C}, (rulesOf nullsCfg)[d]? ≠ some (Rule.mk 4 B C) := by
    intro d B C h
    match d with
    | 0 | 1 | 2 => cases h
    | d + 3 => cases h
  cases h with
  | leaf hm => simp [inputOf, foo] at hm
  | unary hr ht =>
    obtain ⟨rfl, rfl, _⟩ := rule3 hr
    cases ht with
    | @leaf _ v _ hm =>
      have : v = 0 := by simpa [inputOf, foo] using hm
      rw [this]
    | unary hr' _ => exact absurd hr' rule4
    | binary hr' _ _ => exact absurd hr' rule4
  | binary hr _ _ => cases (rule3 hr).2.2

theorem foo_accepts : Accepts (rulesOf nullsCfg) 12 foo :=
  (foo_good (E := simple nulls) rfl rfl).accepts
    (TreeOf.binary (d := 2) (A := 12) (B := 1) (C := 3) rfl (.leaf (v := 0) (by decide)) foo_tree)

end Gearley.Example.Nulls
