import Verif.Model.Effects

/-!
# `CartesianProduct` (gearley-utils/src/cartesian_product.rs)

Pointers are modelled as a slice with an offset; the address of an element is the address of the slice plus the offset (in
units of the element size, which must not be zero). Reading outside of a slice is undefined behaviour in the code and the
panic `index` in the model. The creation of a reference one past the end in `Factor::advance` (line 23), which is never
read, is not an error in the model.
-/

namespace Gearley

/-- A slice `&[V]`: its address and its elements. -/
structure Slice (V : Type) where
  addr : Nat
  elems : List V
  deriving DecidableEq, Repr

/-- A pointer into a slice. -/
structure Ptr (V : Type) where
  slice : Slice V
  pos : Nat
  deriving DecidableEq, Repr

namespace Ptr
variable {V : Type}

def addr (p : Ptr V) : Nat := p.slice.addr + p.pos
def offset1 (p : Ptr V) : Ptr V := { p with pos := p.pos + 1 }
def read (p : Ptr V) : M V := indexM p.slice.elems p.pos

end Ptr

/-- `Factor` (cartesian_product.rs:3-7): the start pointer; the end pointer is given by the length of the slice. -/
structure Factor (V : Type) where
  start : Ptr V
  fin : Nat
  deriving DecidableEq, Repr

namespace Factor
variable {V : Type}

/-- `Factor::new` (cartesian_product.rs:10-19). -/
def new (s : Slice V) : Factor V := { start := ⟨s, 0⟩, fin := s.addr + s.elems.length }

/-- `Factor::advance` (cartesian_product.rs:21-31): the new pointer and whether it wrapped around. -/
def advance (f : Factor V) (p : Ptr V) : Ptr V × Bool :=
  let p := p.offset1
  if p.addr = f.fin then (f.start, true) else (p, false)

end Factor

/-- `CartesianProduct` (cartesian_product.rs:34-37). -/
structure CartProd (V : Type) where
  ptrs : List (Ptr V) := []
  ranges : List (Factor V) := []
  deriving DecidableEq, Repr

namespace CartProd
variable {V : Type}

/-- `new` (cartesian_product.rs:40-45) without capacities. -/
def new : CartProd V := {}

/-- `clear` (cartesian_product.rs:47-50). -/
def clear (_ : CartProd V) : CartProd V := {}

/-- `push` (cartesian_product.rs:53-59). -/
def push (c : CartProd V) (s : Slice V) : CartProd V :=
  { ranges := c.ranges ++ [Factor.new s], ptrs := c.ptrs ++ [(Factor.new s).start] }

/-- `extend` (cartesian_product.rs:62-72): all ranges, not only the new ones, are added to `ptrs` (lines 68-70, `FIXME`). -/
def extend (c : CartProd V) (ss : List (Slice V)) : CartProd V :=
  let ranges := c.ranges ++ ss.map Factor.new
  { ranges := ranges, ptrs := c.ptrs ++ ranges.map (·.start) }

/-- `as_slice` (cartesian_product.rs:74-76), with the values read through the pointers. -/
def asSlice (c : CartProd V) : M (List V) := c.ptrs.mapM Ptr.read

/-- The `for` loop of `advance` (cartesian_product.rs:79-83). -/
def advanceLoop : List (Ptr V) → List (Factor V) → List (Ptr V) × Bool
  | p :: ps, f :: fs =>
    match f.advance p with
    | (p, false) => (p :: ps, true)
    | (p, true) =>
      let r := advanceLoop ps fs
      (p :: r.1, r.2)
  | ps, _ => (ps, false)

/-- `advance` (cartesian_product.rs:78-85). -/
def advance (c : CartProd V) : CartProd V × Bool :=
  let r := advanceLoop c.ptrs c.ranges
  ({ c with ptrs := r.1 }, r.2)

/-- The loop in which the product is meant to be used (cartesian_product.rs:96-104, simple_compact_evaluator.rs:50-56, commented out):
read a combination, then advance until `false`. -/
def visitStep (st : CartProd V × List (List V)) : M ((CartProd V × List (List V)) ⊕ (CartProd V × List (List V))) := do
  let v ← st.1.asSlice
  let (c, more) := st.1.advance
  if more then pure (.inl (c, st.2 ++ [v])) else pure (.inr (c, st.2 ++ [v]))

def visit (c : CartProd V) : M (CartProd V × List (List V)) := loop visitStep (c, [])

end CartProd
end Gearley
