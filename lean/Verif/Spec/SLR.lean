import Verif.Spec.LR

/-!
# A check that a grammar is LR(1)

The method is SLR(1): a finite automaton that follows the beginnings of right-sentential forms, and FOLLOW sets. `SLRTable.check`
is evaluated for examples of LR(1) grammars; Proofs/SLR.lean has the proof that what passes is LR(1) by Knuth's definition.
-/

namespace Gearley.Spec

/-- States with their items (number of a rule and position in it), transitions, FIRST sets and FOLLOW sets. -/
structure SLRTable where
  items : List (List (Nat × Nat))
  goto : List (List (Nat × Nat))
  first : List (List Nat)
  follow : List (List (Option Nat))

/-- Whether a symbol has no rules. -/
def isToken (P : URules) (X : Nat) : Bool := P.all fun r => r.1 != X

namespace SLRTable
variable (T : SLRTable) (P : URules)

def itemsAt (i : Nat) : List (Nat × Nat) := T.items.getD i []

def next (i X : Nat) : Option Nat := (T.goto.getD i []).lookup X

def firstOf (X : Nat) : List Nat := if isToken P X then [X] else T.first.getD X []

def followOf (A : Nat) : List (Option Nat) := T.follow.getD A []

/-- FIRST sets are closed, and no rule is empty. -/
def checkFirst : Bool := P.all fun r => match r.2 with
  | [] => false
  | X :: _ => (T.firstOf P X).all fun t => (T.firstOf P r.1).contains t

/-- FOLLOW sets are closed. -/
def checkFollow (S : Nat) : Bool := (T.followOf S).contains none && P.all fun r => (List.range r.2.length).all fun j => match r.2[j]? with
  | none => true
  | some A => isToken P A || match r.2[j + 1]? with
    | none => (T.followOf r.1).all fun t => (T.followOf A).contains t
    | some Y => (T.firstOf P Y).all fun t => (T.followOf A).contains (some t)

/-- The rules for `X` are in state `i`. -/
def hasRules (i X : Nat) : Bool := (List.range P.length).all fun k => match P[k]? with
  | none => true
  | some r => r.1 != X || (T.itemsAt i).contains (k, 0)

/-- States are closed, and transitions lead to the items they should. -/
def checkStates (S : Nat) : Bool := T.hasRules P 0 S && (List.range T.items.length).all fun i => (T.itemsAt i).all fun it => match P[it.1]? with
  | none => true
  | some r => match r.2[it.2]? with
    | none => true
    | some X => T.hasRules P i X && match T.next i X with
      | none => false
      | some i' => decide (i' < T.items.length) && (T.itemsAt i').contains (it.1, it.2 + 1)

/-- There are no conflicts: at the end of a rule, no other rule ends that may be followed by the same token, and no token can be
read that may follow. -/
def checkConflicts : Bool := (List.range T.items.length).all fun i => (T.itemsAt i).all fun it => match P[it.1]? with
  | none => true
  | some r => it.2 != r.2.length || (T.itemsAt i).all fun it' => match P[it'.1]? with
    | none => true
    | some r' => match r'.2[it'.2]? with
      | none => r == r' || it'.2 != r'.2.length || (T.followOf r.1).all fun t => !(T.followOf r'.1).contains t
      | some X => !isToken P X || !(T.followOf r.1).contains (some X)

def check (S : Nat) : Bool := T.checkFirst P && T.checkFollow P S && T.checkStates P S && T.checkConflicts P

/-! ### A table, not verified -/

def closure (P : URules) : Nat → List (Nat × Nat) → List (Nat × Nat)
  | 0, l => l
  | f + 1, l =>
    let new := (List.range P.length).filter fun k => match P[k]? with
      | none => false
      | some r => !l.contains (k, 0) && l.any fun it => match P[it.1]? with
        | none => false
        | some r' => r'.2[it.2]? == some r.1
    if new.isEmpty then l else closure P f (l ++ new.map fun k => (k, 0))

def afterDot (P : URules) (it : Nat × Nat) : Option Nat := (P[it.1]?).bind fun r => r.2[it.2]?

def buildStates (P : URules) : Nat → Nat → List (List (Nat × Nat)) → List (List (Nat × Nat)) → List (List (Nat × Nat)) × List (List (Nat × Nat))
  | 0, _, items, goto => (items, goto)
  | f + 1, i, items, goto => match items[i]? with
    | none => (items, goto)
    | some l =>
      let p := (l.filterMap (afterDot P)).eraseDups.foldl (fun (p : List (List (Nat × Nat)) × List (Nat × Nat)) X =>
        let l' := closure P P.length ((l.filter fun it => afterDot P it == some X).map fun it => (it.1, it.2 + 1))
        match p.1.findIdx? (· == l') with
        | some j => (p.1, p.2 ++ [(X, j)])
        | none => (p.1 ++ [l'], p.2 ++ [(X, p.1.length)])) (items, [])
      buildStates P f (i + 1) p.1 (goto ++ [p.2])

def union {α : Type} [BEq α] (l m : List α) : List α := m.foldl (fun l x => if l.contains x then l else l ++ [x]) l

def buildFirst (P : URules) : Nat → List (List Nat) → List (List Nat)
  | 0, F => F
  | f + 1, F => buildFirst P f (P.foldl (fun F r => match r.2 with
    | [] => F
    | X :: _ => F.set r.1 (union (F.getD r.1 []) (if isToken P X then [X] else F.getD X []))) F)

def buildFollow (P : URules) (first : List (List Nat)) : Nat → List (List (Option Nat)) → List (List (Option Nat))
  | 0, F => F
  | f + 1, F => buildFollow P first f (P.foldl (fun F r => (List.range r.2.length).foldl (fun F j => match r.2[j]? with
    | none => F
    | some A => if isToken P A then F else match r.2[j + 1]? with
      | none => F.set A (union (F.getD A []) (F.getD r.1 []))
      | some Y => F.set A (union (F.getD A []) ((if isToken P Y then [Y] else first.getD Y []).map some))) F) F)

/-- The table for a grammar with symbols below `syms`. The sets are computed in `rounds` rounds. -/
def build (P : URules) (S syms rounds fuel : Nat) : SLRTable :=
  let p := buildStates P fuel 0 [closure P P.length (((List.range P.length).filter fun k => (P.getD k (0, [])).1 == S &&
    (P.getD k (0, [])).2.length > 0).map fun k => (k, 0))] []
  let first := buildFirst P rounds (List.replicate syms [])
  { items := p.1, goto := p.2, first := first,
    follow := buildFollow P first rounds ((List.replicate syms []).set S [none]) }

end SLRTable
end Gearley.Spec
