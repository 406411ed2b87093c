import Verif.Spec.SLR

/-!
# A check that a grammar is LR(1), with look-ahead in the items

The canonical LR(1) automaton, for grammars with or without empty rules. `LRTable.check` is evaluated for examples;
Proofs/LRTable.lean has the proof that what passes is LR(1) by Knuth's definition.
-/

namespace Gearley.Spec

/-- States with their items (number of a rule, position in it, token that comes after the rule or end), transitions, FIRST sets
and the symbols that derive the empty string. -/
structure LRTable where
  items : List (List (Nat × Nat × Option Nat))
  goto : List (List (Nat × Nat))
  first : List (List Nat)
  null : List Nat

namespace LRTable
variable (T : LRTable) (P : URules)

def itemsAt (i : Nat) : List (Nat × Nat × Option Nat) := T.items.getD i []

def next (i X : Nat) : Option Nat := (T.goto.getD i []).lookup X

def firstOf (X : Nat) : List Nat := if isToken P X then [X] else T.first.getD X []

def vanishes (X : Nat) : Bool := !isToken P X && T.null.contains X

/-- The tokens that a string of symbols may begin with. -/
def starts : List Nat → List Nat
  | [] => []
  | Y :: l => T.firstOf P Y ++ if T.vanishes P Y then starts l else []

/-- What comes first in the string of symbols, if `a` comes after it. -/
def ahead (ρ : List Nat) (a : Option Nat) : List (Option Nat) :=
  (T.starts P ρ).map some ++ if ρ.all (T.vanishes P) then [a] else []

/-- The sets are closed. -/
def checkFirst : Bool := P.all fun r => ((T.starts P r.2).all fun t => (T.firstOf P r.1).contains t) &&
  (!r.2.all (T.vanishes P) || T.vanishes P r.1)

/-- The rules for `X` are in state `i`, with `b` to come after them. -/
def hasRules (i X : Nat) (b : Option Nat) : Bool := (List.range P.length).all fun k => match P[k]? with
  | none => true
  | some r => r.1 != X || (T.itemsAt i).contains (k, 0, b)

/-- States are closed, and transitions lead to the items they should. -/
def checkStates (S : Nat) : Bool := T.hasRules P 0 S none && (List.range T.items.length).all fun i => (T.itemsAt i).all fun it =>
  match P[it.1]? with
  | none => true
  | some r => match r.2[it.2.1]? with
    | none => true
    | some X => ((T.ahead P (r.2.drop (it.2.1 + 1)) it.2.2).all fun b => T.hasRules P i X b) && match T.next i X with
      | none => false
      | some i' => decide (i' < T.items.length) && (T.itemsAt i').contains (it.1, it.2.1 + 1, it.2.2)

/-- There are no conflicts: at the end of a rule, no other rule ends that is followed by the same token, and that token cannot be
read. -/
def checkConflicts : Bool := (List.range T.items.length).all fun i => (T.itemsAt i).all fun it => match P[it.1]? with
  | none => true
  | some r => it.2.1 != r.2.length || (T.itemsAt i).all fun it' => match P[it'.1]? with
    | none => true
    | some r' => match r'.2[it'.2.1]? with
      | none => r == r' || it'.2.1 != r'.2.length || it.2.2 != it'.2.2
      | some X => !isToken P X || it.2.2 != some X

def check (S : Nat) : Bool := decide (0 < T.items.length) && T.checkFirst P && T.checkStates P S && T.checkConflicts P

end LRTable
end Gearley.Spec
