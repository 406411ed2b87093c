/-! # Model of `gearley-forest/src/item.rs` -/

namespace Gearley

/-- `struct Item<N> { dot, origin, node }` (gearley-forest/src/item.rs:4-16). Dots and origins are `u32` in the code,
`Nat` here. -/
structure Item (ν : Type) where
  dot : Nat
  origin : Nat
  node : ν
  deriving DecidableEq, Repr

namespace Item
variable {ν : Type}

/-- `impl Ord for Item` (item.rs:32-36): compares `(origin, dot)`, ignoring the node. -/
def cmp (a b : Item ν) : Ordering := (compare a.origin b.origin).then (compare a.dot b.dot)

/-- `impl PartialEq for Item` (item.rs:18-22). -/
def beq (a b : Item ν) : Bool := (a.origin, a.dot) == (b.origin, b.dot)

/-- `a <= b` as provided by `PartialOrd` from `cmp` (item.rs:26-30). -/
def le (a b : Item ν) : Bool := (cmp a b).isLE

/-- `a >= b`. -/
def ge (a b : Item ν) : Bool := (cmp a b).isGE

/-- `a > b`. -/
def gt (a b : Item ν) : Bool := (cmp a b).isGT

end Item
end Gearley
