import Verif.Examples.Sums

/-!
# A concrete grammar with a one-symbol cycle

The user's grammar `S ::= S | a`.

Symbols: 0 eof, 1 sof, 2 a, 3 root, 4 S; generated: 5 (g0).
-/

namespace Gearley.Example.Cyclic
open Gearley.Spec Gearley.Example

def cfg : Cfg where
  numSyms := 6
  rules := [
    { lhs := 3, rhs := [5, 0], dots := dots3 },
    { lhs := 4, rhs := [4], origin := some 0, dots := dots3 },
    { lhs := 4, rhs := [2], origin := some 1, dots := dots3 },
    { lhs := 5, rhs := [1, 4], dots := dots3 }]
  wrappedRoots := [⟨3, 1, 0, 4⟩]

def wrap : WrappedRoot := ⟨3, 1, 0, 4⟩

def first : List (Nat × List Nat) := [(3, [1]), (4, [2]), (5, [1])]
def follow : List (Nat × List Nat) := [(4, [0]), (5, [0]), (0, []), (1, [2]), (2, [0])]

def nulling : Cfg := { numSyms := 6, rules := [], wrappedRoots := [] }

theorem processed : ProcessedOK cfg 5 wrap (fun A => if A = 5 then 3 else 0) where
  len := by decide
  lhs_lt := by decide
  rhs_lt := by decide
  sorted := by decide
  syms_le := by decide
  gen := by decide
  genLhs := by decide
  genUnary := by
    intro A h1 h2
    have : ∀ A, A < 6 → (cfg.rules.countP fun r => r.rhs = [A]) ≤ 1 := by decide
    exact this A h2
  depth := by decide
  dots := by decide
  numRoots := rfl
  root := rfl
  start_lt := by decide
  eof_lt := by decide
  startRule := by decide
  eofOnce := by decide
  eofNot0 := by decide
  eofTerm := by decide
  eofMin := by decide
  startNot := by decide

theorem firstOK : FirstSetsOK (rulesOf cfg) 5 first := FirstClosed.ok (by decide) 5
theorem followOK : FollowSetsOK (rulesOf cfg) 5 3 follow := FollowClosed.ok (first := first) (by decide) (by decide) 5 3

def grammar : DefaultGrammar :=
  match fromProcessedWith (Build.rootOfFuel 10) cfg {} nulling first follow with
  | some (.ok g) => g
  | _ => {}

theorem grammar_eq : fromProcessed cfg {} nulling first follow = pure grammar := by
  refine fromProcessed_below 10 _ _ _ _ _ _ ?_
  decide +kernel

theorem prepared : Prepared cfg 5 wrap grammar where
  processed := ⟨_, processed⟩
  tables := ⟨_, _, _, _, grammar_eq, firstOK, followOK⟩
  sof_lt := by decide
  sofTerm := by unfold Terminal; decide

/-- The environment of the examples. -/
def env : Env Unit Unit := { g := grammar, F := nullForest, sorter := sorter }

theorem safe : SafeStart env.F () cfg.rules.length cfg.numSyms := nullForest_safeStart _ _

theorem cycle : OnCycle (rulesOf cfg) 4 := .single ⟨⟨4, 4, none⟩, by decide, rfl, rfl, rfl⟩

end Gearley.Example.Cyclic
