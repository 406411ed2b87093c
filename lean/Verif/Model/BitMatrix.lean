import Verif.Model.Effects

/-!
# Bit matrices and the prediction of rows

`bit_matrix::BitMatrix` comes from an external crate; it is modelled as a list of Boolean rows of a fixed width.
Addressing a bit beyond the width is modelled as a panic (the crate allows the padding bits of the last block; the
modelled code never addresses them unless it is handed symbols outside the grammar).
-/

namespace Gearley

/-- `bit_matrix::BitMatrix`: `rows` all have length `width`. -/
structure BitMatrix where
  width : Nat
  rows : List (List Bool)
  deriving DecidableEq, Repr

namespace BitMatrix

/-- `BitMatrix::new(rows, row_bits)`. -/
def new (rows width : Nat) : BitMatrix := ⟨width, List.replicate rows (List.replicate width false)⟩

/-- `matrix[row]`. -/
def row (m : BitMatrix) (i : Nat) : M (List Bool) := indexM m.rows i

/-- `matrix.set(row, col, bit)`. -/
def set (m : BitMatrix) (i j : Nat) (b : Bool) : M BitMatrix := do
  let r ← indexM m.rows i
  let r' ← setM r j b
  pure { m with rows := m.rows.set i r' }

/-- `matrix[(row, col)]`, `matrix[row].get(col)`. -/
def get (m : BitMatrix) (i j : Nat) : M Bool := do
  let r ← m.row i
  indexM r j

/-- `matrix.grow(num_rows, value)`. -/
def grow (m : BitMatrix) (n : Nat) (b : Bool) : BitMatrix :=
  { m with rows := m.rows ++ List.replicate n (List.replicate m.width b) }

/-- `matrix.truncate(num_rows)`. -/
def truncate (m : BitMatrix) (n : Nat) : BitMatrix := { m with rows := m.rows.take n }

/-- Block-wise `dst |= src` of two rows. -/
def orRow (dst src : List Bool) : List Bool := List.zipWith (· || ·) dst src

/-- One round of Warshall's algorithm. -/
def tcStep (rows : List (List Bool)) (k : Nat) : List (List Bool) :=
  match rows[k]? with
  | none => rows
  | some rk => rows.map fun r => if r[k]? = some true then orRow r rk else r

/-- `matrix.transitive_closure()` (external crate; Warshall's algorithm on the rows). -/
def transitiveClosure (m : BitMatrix) : BitMatrix :=
  { m with rows := (List.range m.rows.length).foldl tcStep m.rows }

/-- `matrix.reflexive_closure()` (external crate): sets the diagonal. -/
def reflexiveClosure (m : BitMatrix) : BitMatrix :=
  { m with rows := m.rows.mapIdx fun i r => r.set i true }

end BitMatrix

/-- `Predict::predict` (gearley-recognizer/src/predict.rs:12-23). -/
def predictRow (row : List Bool) (sym : Nat) (source : List Bool) : M (List Bool) := do
  let b ← indexM row sym
  if !b then pure (BitMatrix.orRow row source) else pure row

/-- `Predict::clear` (gearley-recognizer/src/predict.rs:25-29). -/
def clearRow (row : List Bool) : List Bool := row.map fun _ => false

end Gearley
