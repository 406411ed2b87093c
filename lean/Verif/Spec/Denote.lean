import Verif.Model.CompactBocage
import Verif.Spec.TreeForest

/-!
# Specification: the trees represented by a bocage graph

`Den graph h trees`: the node at handle `h` represents exactly the list `trees` of parse trees (one entry for each
derivation). A sum node represents the trees of all of its summands, a product node the trees of one rule, a rule node
all pairs of a left and a right tree.
-/

namespace Gearley
open Gearley.Spec

/-- The meaning of a node of the simple bocage: a sum node with `count > 1` is followed by its summands. -/
inductive Simple.Den (G : List Simple.Node) : Nat → List PTree → Prop
  | leaf {h s v} : G[h]? = some (.leaf s v) → Den G h [.leaf s v]
  | nulling {h s} : G[h]? = some (.nullingLeaf s) → Den G h [.nulling s]
  | product {h d f ts} : G[h]? = some (.product d f) → Den G f ts → Den G h (ts.map (.node d))
  | rule {h l r ls rs} : G[h]? = some (.rule l r) → Den G l ls → Den G r rs → Den G h (pairs ls rs)
  | sum {h nt k} {ts : List (List PTree)} : G[h]? = some (.sum nt k) → 1 < k → ts.length = k →
      (∀ i, i < k → ∃ d f, G[h + 1 + i]? = some (.product d f)) → (∀ i (hi : i < ts.length), Den G (h + 1 + i) ts[i]) → Den G h ts.flatten

/-- The meaning of a node of the compact bocage. With `true`: of the summands from a position up to the next end mark.
A handle refers to a single summand (followed by an end mark) or to the begin mark of several. Product nodes are made
for nulling symbols only. -/
inductive Compact.DenAt (G : List Nat) : Bool → Nat → List PTree → Prop
  | leaf {h s v} : Compact.get G h = pure (.leaf s v) → DenAt G false h [.leaf s v]
  | nulling {h s} : Compact.get G h = pure (.nullingLeaf s) → DenAt G false h [.nulling s]
  | product {h f ts} : Compact.get G h = pure (.product nullAction f) → DenAt G false f ts →
      DenAt G false h (ts.map (.node nullAction))
  | rule {h l r ls rs} : Compact.get G h = pure (.rule l r) → DenAt G false l ls → DenAt G false r rs →
      DenAt G false h (pairs ls rs)
  | single {h d f ts} : Compact.get G h = pure (.summand d f) → DenAt G true h ts → DenAt G false h ts
  | beginSum {h d f ts} : Compact.get G h = pure .beginSum → Compact.get G (h + 1) = pure (.summand d f) →
      DenAt G true (h + 1) ts → 1 < ts.length → DenAt G false h ts
  | endSum {h} : Compact.get G h = pure .endSum → DenAt G true h []
  | summand {h d f s ts us} : Compact.get G h = pure (.summand d f) → Compact.getNodeSize G h = pure s →
      DenAt G false f ts → DenAt G true (h + s) us → DenAt G true h (ts.map (.node d) ++ us)

abbrev Compact.Den (G : List Nat) (h : Nat) (ts : List PTree) : Prop := Compact.DenAt G false h ts

/-- The two factors of the last intermediate rule for a nulling symbol. -/
def ForestInfo.nullingRule (info : ForestInfo) (s : Nat) : Option (Nat × Nat) :=
  (info.nullingIntermediate.reverse.find? fun r => r.1 = s).map (·.2)

end Gearley
