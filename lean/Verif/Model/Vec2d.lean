import Verif.Model.Effects

/-!
# Model of `gearley-vec2d/src/lib.rs`

A flat array of items plus the start index of each set. Capacities are not modelled.
-/

namespace Gearley

/-- `struct Vec2d<I>` (gearley-vec2d/src/lib.rs:9-12). -/
structure Vec2d (α : Type) where
  chart : List α
  indices : List Nat
  deriving DecidableEq, Repr

namespace Vec2d
variable {α : Type}

/-- `Vec2d::new`, `Default::default` and `with_capacity` (lib.rs:21-33, 131-138); the capacity argument only
reserves memory and is dropped. -/
def new : Vec2d α := ⟨[], [0]⟩

/-- `Vec2d::clear` (lib.rs:35-42). -/
def clear (_v : Vec2d α) : Vec2d α := ⟨[], [0]⟩

/-- `<[T]>::copy_within(src.., dest)` from std, as used at lib.rs:51-52: panics when the source start is out of
range or the destination range does not fit. -/
def copyWithin (l : List α) (src dest : Nat) : M (List α) :=
  if src ≤ l.length ∧ dest + (l.length - src) ≤ l.length then
    pure (l.take dest ++ l.drop src ++ l.drop (dest + (l.length - src)))
  else panicM .index

/-- `Vec2d::truncate` (lib.rs:46-56). -/
def truncate (v : Vec2d α) (newLen : Nat) : M (Vec2d α) := do
  let newStart ← indexM v.indices newLen
  let last ← unwrapM v.indices.getLast?
  let chart ← copyWithin v.chart last newStart
  let newChartLen ← subM (chart.length + newStart) last
  pure ⟨chart.take newChartLen, v.indices.take (newLen + 1)⟩

/-- `Vec2d::truncate_chart` (lib.rs:58-60). -/
def truncateChart (v : Vec2d α) (newLen : Nat) : Vec2d α :=
  { v with chart := v.chart.take newLen }

/-- `Vec2d::last` (lib.rs:63-65). -/
def last (v : Vec2d α) : M (List α) := do
  let i ← unwrapM v.indices.getLast?
  sliceFromM v.chart i

/-- `*Vec2d::last_mut() = f(..)` (lib.rs:68-70): replace the in-progress set by `f` of it.
The only caller sorts in place, so `f` keeps the length. -/
def modifyLast (v : Vec2d α) (f : List α → M (List α)) : M (Vec2d α) := do
  let i ← unwrapM v.indices.getLast?
  let l ← sliceFromM v.chart i
  let l' ← f l
  pure { v with chart := v.chart.take i ++ l' }

/-- `Vec2d::last_item` (lib.rs:73-75). -/
def lastItem (v : Vec2d α) : Option α := v.chart.getLast?

/-- `Vec2d::get_item` (lib.rs:78-80). -/
def getItem (v : Vec2d α) (i : Nat) : Option α := v.chart[i]?

/-- `Vec2d::push_item` (lib.rs:83-85). -/
def pushItem (v : Vec2d α) (x : α) : Vec2d α := { v with chart := v.chart ++ [x] }

/-- `Vec2d::pop_item` (lib.rs:88-90). -/
def popItem (v : Vec2d α) : Vec2d α × Option α :=
  ({ v with chart := v.chart.dropLast }, v.chart.getLast?)

/-- `Vec2d::item_count` (lib.rs:93-95). -/
def itemCount (v : Vec2d α) : Nat := v.chart.length

/-- `Vec2d::index_at` (lib.rs:97-99). -/
def indexAt (v : Vec2d α) (setId : Nat) : M Nat := indexM v.indices setId

/-- `Vec2d::next_set` (lib.rs:106-108). -/
def nextSet (v : Vec2d α) : Vec2d α := { v with indices := v.indices ++ [v.chart.length] }

/-- `Vec2d::extend_with_set` (lib.rs:101-104). -/
def extendWithSet (v : Vec2d α) (set : List α) : Vec2d α :=
  nextSet { v with chart := v.chart ++ set }

/-- `Vec2d::len` (lib.rs:110-112). -/
def len (v : Vec2d α) : Nat := v.indices.length

/-- `Index::index` (lib.rs:118-120). -/
def index (v : Vec2d α) (i : Nat) : M (List α) := do
  let a ← indexM v.indices i
  let b ← indexM v.indices (i + 1)
  sliceM v.chart a b

/-- `Extend::extend` (lib.rs:140-146). -/
def extend (v : Vec2d α) (sets : List (List α)) : Vec2d α :=
  sets.foldl extendWithSet v

/-- `FromIterator::from_iter` (lib.rs:123-129). -/
def fromIter (sets : List (List α)) : Vec2d α := extend new sets

end Vec2d
end Gearley
