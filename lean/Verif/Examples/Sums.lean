import Verif.Proofs.Parse
import Verif.Proofs.Below

/-!
# A concrete grammar

The user's grammar `E ::= E plus E | a` (ambiguous), as processed: wrapped, binarized with a generated symbol `7`, and
numbered by `remap_symbols`. It is used to show that the hypotheses of the theorems can be met, and to compute runs.

Symbols: 0 eof, 1 sof, 2 plus, 3 root, 4 E, 5 a; generated: 6 (g0), 7.
-/

namespace Gearley.Example
open Gearley.Spec

def keyIns {α : Type} (k : α → Key) (x : α) : List α → List α
  | [] => [x]
  | y :: l => if Key.le (k x) (k y) then x :: y :: l else y :: keyIns k x l

def keySort {α : Type} (k : α → Key) : List α → List α
  | [] => []
  | x :: l => keyIns k x (keySort k l)

theorem keyIns_perm {α : Type} (k : α → Key) (x : α) (l : List α) : (keyIns k x l).Perm (x :: l) := by
  induction l with
  | nil => exact .refl _
  | cons y l ih =>
    unfold keyIns
    split
    · exact .refl _
    · exact (ih.cons y).trans (List.Perm.swap x y l)

theorem Key.le_total (a b : Key) : Key.le a b = true ∨ Key.le b a = true := by
  obtain ⟨a1, a2, a3⟩ := a
  obtain ⟨b1, b2, b3⟩ := b
  simp only [Key.le, decide_eq_true_eq]
  omega

theorem Key.le_trans {a b c : Key} (h1 : Key.le a b = true) (h2 : Key.le b c = true) : Key.le a c = true := by
  obtain ⟨a1, a2, a3⟩ := a
  obtain ⟨b1, b2, b3⟩ := b
  obtain ⟨c1, c2, c3⟩ := c
  simp only [Key.le, decide_eq_true_eq] at *
  omega

theorem keyIns_sorted {α : Type} (k : α → Key) (x : α) (l : List α)
    (h : l.Pairwise fun a b => Key.le (k a) (k b) = true) :
    (keyIns k x l).Pairwise fun a b => Key.le (k a) (k b) = true := by
  induction l with
  | nil => exact List.pairwise_singleton _ _
  | cons y l ih =>
    unfold keyIns
    rw [List.pairwise_cons] at h
    split
    · next hle =>
      refine List.pairwise_cons.2 ⟨?_, List.pairwise_cons.2 h⟩
      intro b hb
      rcases List.mem_cons.1 hb with rfl | hb
      · exact hle
      · exact Key.le_trans hle (h.1 b hb)
    · next hle =>
      refine List.pairwise_cons.2 ⟨?_, ih h.2⟩
      intro b hb
      rcases List.mem_cons.1 ((keyIns_perm k x l).mem_iff.1 hb) with rfl | hb
      · exact (Key.le_total (k b) (k y)).elim (fun h => absurd h hle) id
      · exact h.1 b hb

theorem keyIns_map {α β : Type} (k : β → Key) (f : α → β) (x : α) (l : List α) :
    keyIns k (f x) (l.map f) = (keyIns (fun a => k (f a)) x l).map f := by
  induction l with
  | nil => rfl
  | cons y l ih =>
    simp only [List.map_cons, keyIns]
    split
    · rfl
    · rw [ih]; rfl

/-- Insertion sort meets the contract of `sort_unstable_by_key`. -/
def sorter : Sorter where
  sort := keySort
  perm k l := by
    induction l with
    | nil => exact .refl _
    | cons x l ih => exact (keyIns_perm k x _).trans (ih.cons x)
  sorted k l := by
    induction l with
    | nil => exact List.Pairwise.nil
    | cons x l ih => exact keyIns_sorted k x _ ih
  natural k f l := by
    induction l with
    | nil => rfl
    | cons x l ih =>
      simp only [List.map_cons, keySort]
      rw [ih, keyIns_map]

def dots3 : List EarleyDot := [⟨(1, 0), (1, 0)⟩, ⟨(1, 1), (1, 1)⟩, ⟨(1, 2), (1, 2)⟩]

/-- The events and trace points of rule number `k`, counted from 1. -/
def dotsOf (k : Nat) : List EarleyDot :=
  [⟨(10 * k, 0), (10 * k, 0)⟩, ⟨(10 * k + 1, 0), (10 * k, 1)⟩, ⟨(10 * k + 2, 0), (10 * k, 2)⟩]

def cfg : Cfg where
  numSyms := 8
  rules := [
    { lhs := 3, rhs := [6, 0], dots := dotsOf 1 },
    { lhs := 4, rhs := [7, 4], origin := some 0, dots := dotsOf 2 },
    { lhs := 4, rhs := [5], origin := some 1, dots := dotsOf 3 },
    { lhs := 6, rhs := [1, 4], dots := dotsOf 4 },
    { lhs := 7, rhs := [4, 2], dots := dotsOf 5 }]
  wrappedRoots := [⟨3, 1, 0, 4⟩]

def wrap : WrappedRoot := ⟨3, 1, 0, 4⟩

def first : List (Nat × List Nat) := [(3, [1]), (4, [5]), (6, [1]), (7, [5])]
def follow : List (Nat × List Nat) := [(4, [0, 2]), (5, [0, 2]), (6, [0]), (0, []), (1, [5]), (2, [5]), (7, [5])]

def noRules : Cfg := { numSyms := 8, rules := [], wrappedRoots := [] }

theorem processed : ProcessedOK cfg 6 wrap (fun A => if A = 7 then 5 else if A = 6 then 4 else 0) where
  len := by decide
  lhs_lt := by decide
  rhs_lt := by decide
  sorted := by decide
  syms_le := by decide
  gen := by decide
  genLhs := by decide
  genUnary := by
    intro A h1 h2
    have : ∀ A, A < 8 → (cfg.rules.countP fun r => r.rhs = [A]) ≤ 1 := by decide
    exact this A h2
  depth := by decide
  dots := by decide
  numRoots := rfl
  root := rfl
  start_lt := by decide
  eof_lt := by decide
  startRule := by decide
  eofOnce := by decide
  eofNot0 := by decide
  eofTerm := by decide
  eofMin := by decide
  startNot := by decide

theorem acyclic : UnaryAcyclic (rulesOf cfg) := ⟨fun A => A, by decide⟩

theorem firstOK : FirstSetsOK (rulesOf cfg) 6 first := FirstClosed.ok (by decide) 6
theorem followOK : FollowSetsOK (rulesOf cfg) 6 3 follow := FollowClosed.ok (first := first) (by decide) (by decide) 6 3

/-- The tables, computed. -/
def grammar : DefaultGrammar :=
  match fromProcessedWith (Build.rootOfFuel 10) cfg {} noRules first follow with
  | some (.ok g) => g
  | _ => {}

theorem grammar_eq : fromProcessed cfg {} noRules first follow = pure grammar := by
  refine fromProcessed_below 10 _ _ _ _ _ _ ?_
  decide +kernel

theorem built : Built cfg 6 wrap grammar where
  processed := ⟨_, processed⟩
  acyclic := acyclic
  tables := ⟨_, _, _, _, grammar_eq, firstOK, followOK⟩
  sof_lt := by decide
  sofTerm := by unfold Terminal; decide

/-- The environment of the examples. -/
def env : Env Unit Unit := { g := grammar, F := nullForest, sorter := sorter }

theorem safe : SafeStart env.F () cfg.rules.length cfg.numSyms := nullForest_safeStart _ _

/-- Internal and external symbols coincide in the example. -/
theorem internals (u : List Nat) : Internals env.g u u := by
  have : ∀ x, env.g.toInternal x = pure (some x) := by
    intro x
    unfold DefaultGrammar.toInternal Build.toInternal
    have : env.g.symMaps.toInternal = [] := by decide +kernel
    rw [if_pos this]
  induction u with
  | nil => exact .nil
  | cons t u ih => exact .cons (this t) ih

/-- The result of `parse` on a fresh recognizer, computed with fuel. -/
def run (u : List Nat) : M (Except ParseError Bool) := do
  let s ← Rec.new env ()
  let (_, r) ← Rec.parseWith env (Rec.completeAllFuel env 50) s u
  pure r

-- a + a + a is accepted
example : run [5, 2, 5, 2, 5] = pure (.ok true) := by decide +kernel
-- a + is a prefix
example : run [5, 2] = pure (.ok false) := by decide +kernel
-- a a fails: the first offending token is token 1, the hint reveals it at token 0
example : run [5, 5] = pure (.error (.parse [5] 0)) := by decide +kernel
-- a + + a fails at token 2
example : run [5, 2, 2, 5] = pure (.error (.parse [2] 2)) := by decide +kernel

end Gearley.Example
