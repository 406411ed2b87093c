import Verif.Spec.User
import Mathlib.Data.List.Dedup

/-!
# Facts about all strings of a grammar from a check of its rules

If a property of strings can be computed from the same property of their parts, then a table with all its values for each
symbol shows what holds for the strings of the grammar, provided that each rule agrees with the table.
-/

namespace Gearley.Spec
open Gearley
variable {U : URules}

mutual
theorem Yields.induct {P : Nat → List Nat → Prop} {Q : List Nat → List Nat → Prop} (ht : ∀ a, UTerminal U a → P a [a])
    (hr : ∀ A rhs u, (A, rhs) ∈ U → Q rhs u → P A u) (hn : Q [] []) (hc : ∀ s ss u v, P s u → Q ss v → Q (s :: ss) (u ++ v))
    {A : Nat} {u : List Nat} (h : Yields U A u) : P A u :=
  match h with
  | .token h => ht _ h
  | .rule hk h => hr _ _ _ (List.mem_of_getElem? hk) (YieldsAll.induct ht hr hn hc h)
theorem YieldsAll.induct {P : Nat → List Nat → Prop} {Q : List Nat → List Nat → Prop} (ht : ∀ a, UTerminal U a → P a [a])
    (hr : ∀ A rhs u, (A, rhs) ∈ U → Q rhs u → P A u) (hn : Q [] []) (hc : ∀ s ss u v, P s u → Q ss v → Q (s :: ss) (u ++ v))
    {rhs u : List Nat} (h : YieldsAll U rhs u) : Q rhs u :=
  match h with
  | .nil => hn
  | .cons h h' => hc _ _ _ _ (Yields.induct ht hr hn hc h) (YieldsAll.induct ht hr hn hc h')
end

section Table
variable {S : Type} [DecidableEq S] (abs : List Nat → S) (op : S → S → S) (val : Nat → List S)

/-- The values of the strings of a string of symbols. -/
def products : List Nat → List S
  | [] => [abs []]
  | s :: ss => ((val s).flatMap fun a => (products ss).map fun b => op a b).dedup

/-- Each rule agrees with the table. -/
def agrees (U : URules) : Bool := U.all fun r => (products abs op val r.2).all fun x => (val r.1).contains x

variable {abs op val}

theorem mem_products {s : Nat} {ss : List Nat} {a b : S} (ha : a ∈ val s) (hb : b ∈ products abs op val ss) :
    op a b ∈ products abs op val (s :: ss) := by
  simp only [products, List.mem_dedup, List.mem_flatMap, List.mem_map]
  exact ⟨a, ha, b, hb, rfl⟩

theorem Yields.mem_table (habs : ∀ u v, abs (u ++ v) = op (abs u) (abs v)) (ht : ∀ a, UTerminal U a → abs [a] ∈ val a)
    (hU : agrees abs op val U = true) {A : Nat} {u : List Nat} (h : Yields U A u) : abs u ∈ val A := by
  refine Yields.induct (P := fun A u => abs u ∈ val A) (Q := fun ss u => abs u ∈ products abs op val ss) ht ?_ ?_ ?_ h
  · intro A rhs u hr hu
    have := List.all_eq_true.1 (List.all_eq_true.1 hU _ hr) _ hu
    simpa using this
  · simp [products]
  · intro s ss u v hu hv
    rw [habs]
    exact mem_products hu hv

end Table

end Gearley.Spec
