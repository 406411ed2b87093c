import Verif.Model.Grammar

/-!
# The order of symbols (`remap_symbols`, gearley-default-grammar/src/lib.rs:232-281)

The relation and the comparison function are modelled. The sort itself and the renaming (`Remap::reorder_symbols`,
`remove_unused_symbols`, `get_mapping`) belong to the external crate `cfg`.
-/

namespace Gearley.Build

/-- The first loop of `remap_symbols` for one rule (lib.rs:236-250): for a rule with one right-hand symbol, the symbol with
the smaller number comes first. -/
def orderRule (order : BitMatrix) (rule : CfgRule) : M BitMatrix :=
  match rule.rhs with
  | [right] =>
    if rule.lhs < right then order.set rule.lhs right true
    else if right < rule.lhs then order.set right rule.lhs true
    else pure order
  | _ => pure order

/-- The second loop of `remap_symbols` for one ordinary symbol (lib.rs:255-264). -/
def orderOrdinary (gensyms : List Bool) (eof : Nat) (order : BitMatrix) (sym : Nat) : M BitMatrix := do
  let row ← order.row sym
  let rows ← setM order.rows sym (BitMatrix.orRow row gensyms)
  { order with rows := rows }.set eof sym true

/-- The members of a bit set, in increasing order. -/
def members (bits : List Bool) : List Nat := (List.range bits.length).filter fun i => bits[i]? == some true

/-- The relation `order` after its transitive closure (lib.rs:233-267). -/
def symbolOrder (c : Cfg) : M BitMatrix := do
  let gensyms ← findGensyms c
  let order ← c.rules.foldlM orderRule (BitMatrix.new c.numSyms c.numSyms)
  assertM (c.wrappedRoots.length == 1)
  let w ← unwrapM c.wrappedRoots.head?
  let order ← (members (gensyms.map not)).foldlM (orderOrdinary gensyms w.eof) order
  pure order.transitiveClosure

/-- The comparison passed to `reorder_symbols` (lib.rs:270-278). -/
def compareSyms (order : BitMatrix) (left right : Nat) : M Ordering := do
  if ← order.get left right then pure .lt
  else if ← order.get right left then pure .gt
  else pure .eq

end Gearley.Build
