import Verif.Examples.Sums

/-!
# A left-recursive grammar

The user's grammar `S ::= S a | a`, as processed. Symbols: 0 eof, 1 sof, 2 root, 3 S, 4 a; generated: 5 (g0).
-/

namespace Gearley.Example.Left
open Gearley.Spec

def cfg : Cfg where
  numSyms := 6
  rules := [
    { lhs := 2, rhs := [5, 0], dots := dots3 },
    { lhs := 3, rhs := [3, 4], origin := some 0, dots := dots3 },
    { lhs := 3, rhs := [4], origin := some 1, dots := dots3 },
    { lhs := 5, rhs := [1, 3], dots := dots3 }]
  wrappedRoots := [⟨2, 1, 0, 3⟩]

def wrap : WrappedRoot := ⟨2, 1, 0, 3⟩

def first : List (Nat × List Nat) := [(2, [1]), (3, [4]), (5, [1])]
def follow : List (Nat × List Nat) := [(3, [0, 4]), (4, [0, 4]), (5, [0]), (0, []), (1, [4])]

theorem processed : ProcessedOK cfg 5 wrap (fun A => if A = 5 then 4 else 0) where
  len := by decide
  lhs_lt := by decide
  rhs_lt := by decide
  sorted := by decide
  syms_le := by decide
  gen := by decide
  genLhs := by decide
  genUnary := by
    intro A h1 h2
    have : ∀ A, A < 6 → (cfg.rules.countP fun r => r.rhs = [A]) ≤ 1 := by decide
    exact this A h2
  depth := by decide
  dots := by decide
  numRoots := rfl
  root := rfl
  start_lt := by decide
  eof_lt := by decide
  startRule := by decide
  eofOnce := by decide
  eofNot0 := by decide
  eofTerm := by decide
  eofMin := by decide
  startNot := by decide

theorem acyclic : UnaryAcyclic (rulesOf cfg) := ⟨fun A => A, by decide⟩

theorem firstOK : FirstSetsOK (rulesOf cfg) 5 first := FirstClosed.ok (by decide) 5
theorem followOK : FollowSetsOK (rulesOf cfg) 5 2 follow := FollowClosed.ok (first := first) (by decide) (by decide) 5 2

def grammar : DefaultGrammar :=
  match fromProcessedWith (Build.rootOfFuel 10) cfg {} noRules first follow with
  | some (.ok g) => g
  | _ => {}

theorem grammar_eq : fromProcessed cfg {} noRules first follow = pure grammar := by
  refine fromProcessed_below 10 _ _ _ _ _ _ ?_
  decide +kernel

theorem built : Built cfg 5 wrap grammar where
  processed := ⟨_, processed⟩
  acyclic := acyclic
  tables := ⟨_, _, _, _, grammar_eq, firstOK, followOK⟩
  sof_lt := by decide
  sofTerm := by unfold Terminal; decide

end Gearley.Example.Left
