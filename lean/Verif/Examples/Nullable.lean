import Verif.Examples.Sums

/-!
# A concrete grammar with a nullable symbol

The user's grammar `S ::= a X`, `X ::= x | ε`. Elimination of the empty rule adds `S ::= a`, where `X` has been removed on
the right.

Symbols: 0 eof, 1 sof, 2 a, 3 x, 4 root, 5 S, 6 X; generated: 7 (g0).
-/

namespace Gearley.Example.Nullable
open Gearley.Spec Gearley.Example

def cfg : Cfg where
  numSyms := 8
  rules := [
    { lhs := 4, rhs := [7, 0], dots := dots3 },
    { lhs := 5, rhs := [2, 6], origin := some 0, dots := dots3 },
    { lhs := 5, rhs := [2], origin := some 0, nullable := some (6, true), dots := dots3 },
    { lhs := 6, rhs := [3], origin := some 1, dots := dots3 },
    { lhs := 7, rhs := [1, 5], dots := dots3 }]
  wrappedRoots := [⟨4, 1, 0, 5⟩]

def wrap : WrappedRoot := ⟨4, 1, 0, 5⟩

def first : List (Nat × List Nat) := [(4, [1]), (5, [2]), (6, [3]), (7, [1])]
def follow : List (Nat × List Nat) := [(5, [0]), (6, [0]), (7, [0]), (0, []), (1, [2]), (2, [0, 3]), (3, [0])]

def nulling : Cfg := { numSyms := 8, rules := [{ lhs := 6, rhs := [], origin := some 2, dots := dots3 }], wrappedRoots := [] }

theorem processed : ProcessedOK cfg 7 wrap (fun A => if A = 7 then 4 else 0) where
  len := by decide
  lhs_lt := by decide
  rhs_lt := by decide
  sorted := by decide
  syms_le := by decide
  gen := by decide
  genLhs := by decide
  genUnary := by
    intro A h1 h2
    have : ∀ A, A < 8 → (cfg.rules.countP fun r => r.rhs = [A]) ≤ 1 := by decide
    exact this A h2
  depth := by decide
  dots := by decide
  numRoots := rfl
  root := rfl
  start_lt := by decide
  eof_lt := by decide
  startRule := by decide
  eofOnce := by decide
  eofNot0 := by decide
  eofTerm := by decide
  eofMin := by decide
  startNot := by decide

theorem acyclic : UnaryAcyclic (rulesOf cfg) := ⟨fun A => 10 - A, by decide⟩

theorem firstOK : FirstSetsOK (rulesOf cfg) 7 first := FirstClosed.ok (by decide) 7
theorem followOK : FollowSetsOK (rulesOf cfg) 7 4 follow := FollowClosed.ok (first := first) (by decide) (by decide) 7 4

def grammar : DefaultGrammar :=
  match fromProcessedWith (Build.rootOfFuel 10) cfg {} nulling first follow with
  | some (.ok g) => g
  | _ => {}

theorem grammar_eq : fromProcessed cfg {} nulling first follow = pure grammar := by
  refine fromProcessed_below 10 _ _ _ _ _ _ ?_
  decide +kernel

theorem built : Built cfg 7 wrap grammar where
  processed := ⟨_, processed⟩
  acyclic := acyclic
  tables := ⟨_, _, _, _, grammar_eq, firstOK, followOK⟩
  sof_lt := by decide
  sofTerm := by unfold Terminal; decide

end Gearley.Example.Nullable
