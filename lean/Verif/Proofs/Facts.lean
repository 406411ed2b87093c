import Mathlib.Data.Multiset.Bind
import Verif.Proofs.Complete

/-!
# Facts

An item of the specification forest stands for one fact per tree. The completion functions act on facts, with
multiplicity.
-/

namespace Gearley
open Gearley.Spec

/-- `(dot, origin, tree below the dot)`. -/
abbrev Fact := Nat × Nat × PTree
/-- `(symbol, origin, tree)`: a finished symbol. -/
abbrev Done := Nat × Nat × PTree

def itemFacts (it : TItem) : Multiset Fact := (it.node : Multiset PTree).map fun f => (it.dot, it.origin, f)

def facts (l : List TItem) : Multiset Fact := (l : Multiset TItem).bind itemFacts

@[simp] theorem facts_nil : facts [] = 0 := rfl
@[simp] theorem facts_cons (it : TItem) (l : List TItem) : facts (it :: l) = itemFacts it + facts l := by
  simp [facts, ← Multiset.cons_coe]
@[simp] theorem facts_append (l l' : List TItem) : facts (l ++ l') = facts l + facts l' := by
  simp [facts, ← Multiset.coe_add]
theorem facts_perm {l l' : List TItem} (h : l.Perm l') : facts l = facts l' := by
  simp only [facts, Multiset.coe_eq_coe.2 h]

theorem mem_itemFacts {it : TItem} {x : Fact} : x ∈ itemFacts it ↔ x.1 = it.dot ∧ x.2.1 = it.origin ∧ x.2.2 ∈ it.node := by
  obtain ⟨d, o, f⟩ := x
  simp only [itemFacts, Multiset.mem_map, Multiset.mem_coe, Prod.mk.injEq]
  constructor
  · rintro ⟨f', h, rfl, rfl, rfl⟩; exact ⟨rfl, rfl, h⟩
  · rintro ⟨rfl, rfl, h⟩; exact ⟨f, h, rfl, rfl, rfl⟩

theorem mem_facts {l : List TItem} {x : Fact} :
    x ∈ facts l ↔ ∃ it ∈ l, x.1 = it.dot ∧ x.2.1 = it.origin ∧ x.2.2 ∈ it.node := by
  simp only [facts, Multiset.mem_bind, Multiset.mem_coe, mem_itemFacts]

theorem facts_map (l : List TItem) (f : TItem → TItem) :
    facts (l.map f) = (l : Multiset TItem).bind fun it => itemFacts (f it) := by
  rw [facts, ← Multiset.map_coe, Multiset.bind_map]

/-- Left-hand side of rule `d`. -/
def lhsOf (R : Rules) (d : Nat) : Nat := (R[d]?.map (·.lhs)).getD 0

theorem lhsOf_eq {R : Rules} {d : Nat} {r : Rule} (h : R[d]? = some r) : lhsOf R d = r.lhs := by simp [lhsOf, h]

/-- A finished rule. -/
def fire (R : Rules) (x : Fact) : Done := (lhsOf R x.1, x.2.1, .node x.1 x.2.2)

/-- What stays fixed while one position is processed. -/
structure EC where
  g : DefaultGrammar
  R : Rules
  root : Nat → Nat
  la : Bool
  sorter : Sorter
  hint : Option Nat
  pm : BitMatrix
  S : List (List TItem)

namespace EC
variable (c : EC)

/-- Items in set `o` that wait for `A` and pass the look-ahead filter. -/
def waiting (o A : Nat) : List TItem :=
  (c.S[o]?.getD []).filter fun it => decide (rhs1Of c.R it.dot = some A) && okM c.g c.R c.la c.hint it.dot

/-- Transitions that pass the filters. -/
def entering (ps : List PT) (o A : Nat) : List PT :=
  ps.filter fun p => c.pm.bit o p.symbol && (decide (c.g.syms ≤ A) || okP c.g c.R c.la c.hint p.dot)

/-- Completed facts caused by a finished symbol. -/
def consH (z : Done) : Multiset Fact :=
  if gate c.g c.pm z.2.1 z.1 then
    (facts (c.waiting z.2.1 z.1)).map (fun x => (x.1, x.2.1, .pair x.2.2 z.2.2)) +
    (c.entering (unTrans c.R c.root z.1) z.2.1 z.1 : Multiset PT).map fun p => (p.dot, z.2.1, z.2.2)
  else 0

/-- Medial facts caused by a finished symbol. -/
def consM (z : Done) : Multiset Fact :=
  if gate c.g c.pm z.2.1 z.1 then
    (c.entering (binTrans c.R c.root z.1) z.2.1 z.1 : Multiset PT).map fun p => (p.dot, z.2.1, z.2.2)
  else 0

theorem pairs_coe (l r : List PTree) :
    (pairs l r : Multiset PTree) = (r : Multiset PTree).bind fun b => (l : Multiset PTree).map fun a => .pair a b := by
  have : (pairs l r : Multiset PTree) = (l : Multiset PTree).bind fun a => (r : Multiset PTree).map fun b => .pair a b := by
    rw [pairs, ← Multiset.coe_bind]
    simp only [Multiset.map_coe]
  rw [this, Multiset.bind_map_comm]

theorem facts_pts (ps : List PT) (o : Nat) (N : List PTree) :
    facts (ps.map fun p => (⟨p.dot, o, N⟩ : TItem)) =
      (N : Multiset PTree).bind fun t => (ps : Multiset PT).map fun p => (p.dot, o, t) := by
  rw [facts, ← Multiset.map_coe, Multiset.bind_map]
  simp only [itemFacts]
  rw [Multiset.bind_map_comm]

theorem facts_heapNew (o A : Nat) (N : List PTree) :
    facts (heapNew c.g c.R c.root c.la c.hint c.pm c.S o A N) = (N : Multiset PTree).bind fun t => c.consH (A, o, t) := by
  simp only [heapNew, consH]
  cases gate c.g c.pm o A with
  | false => simp
  | true =>
    simp only [if_true, facts_append, Multiset.bind_add]
    congr 1
    · have : medPart c.g c.R c.la c.hint c.S o A N = (c.waiting o A).map fun it => ⟨it.dot, it.origin, pairs it.node N⟩ := rfl
      rw [this, facts_map]
      simp only [itemFacts, pairs_coe, Multiset.map_bind, Multiset.map_map, Function.comp_def]
      rw [Multiset.bind_bind]
      simp only [facts, itemFacts, Multiset.map_bind, Multiset.map_map, Function.comp_def]
    · exact facts_pts _ o N

theorem facts_medNew (o A : Nat) (N : List PTree) :
    facts (medNew c.g c.R c.root c.la c.hint c.pm o A N) = (N : Multiset PTree).bind fun t => c.consM (A, o, t) := by
  simp only [medNew, consM]
  cases gate c.g c.pm o A with
  | false => simp
  | true => simp only [if_true]; exact facts_pts _ o N

end EC
end Gearley
