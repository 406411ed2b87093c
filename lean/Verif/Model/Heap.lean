import Verif.Model.Effects
import Verif.Model.Item

/-!
# Model of `gearley-recognizer/src/binary_heap.rs`

The heap is the array `complete.0 : Vec<Item>`; here a list indexed from 0.
-/

namespace Gearley.Heap
variable {ν : Type}

/-- The loop of `sift_up` (binary_heap.rs:184-193) including the final store. The first argument is fuel; it is
called with the initial `pos`, and `pos` strictly decreases, so fuel 0 means `pos = 0` and the loop has ended. -/
def siftUpLoop (element : Item ν) (start : Nat) : Nat → List (Item ν) → Nat → M (List (Item ν))
  | 0, l, pos => setM l pos element
  | fuel + 1, l, pos =>
    if pos > start then do
      let parent := (pos - 1) / 2
      let parentItem ← indexM l parent
      if Item.le element parentItem then
        setM l pos element
      else do
        let l' ← setM l pos parentItem
        siftUpLoop element start fuel l' parent
    else setM l pos element

/-- `sift_up` (binary_heap.rs:182-194). -/
def siftUp (l : List (Item ν)) (start pos : Nat) : M (List (Item ν)) := do
  let element ← indexM l pos
  siftUpLoop element start pos l pos

/-- `heap_push` (binary_heap.rs:174-178). -/
def push (l : List (Item ν)) (item : Item ν) : M (List (Item ν)) :=
  siftUp (l ++ [item]) 0 l.length

/-- The loop of `sift_down_range` (binary_heap.rs:61-76) including the final store. Fuel: called with `end`; `pos`
strictly increases below `end`. -/
def siftDownLoop (element : Item ν) (hi : Nat) : Nat → List (Item ν) → Nat → M (List (Item ν))
  | 0, l, pos => setM l pos element
  | fuel + 1, l, pos =>
    let child := 2 * pos + 1
    if child < hi then do
      let right := child + 1
      let c ← (if right < hi then do
          let a ← unwrapM l[child]?
          let b ← unwrapM l[right]?
          pure (if !(Item.gt a b) then right else child)
        else pure child : M Nat)
      let x ← unwrapM l[c]?
      if Item.ge element x then
        setM l pos element
      else do
        let l' ← setM l pos x
        siftDownLoop element hi fuel l' c
    else setM l pos element

/-- `sift_down_range` (binary_heap.rs:59-77). -/
def siftDownRange (l : List (Item ν)) (pos hi : Nat) : M (List (Item ν)) := do
  let element ← indexM l pos
  siftDownLoop element hi hi l pos

/-- `heap_peek` (binary_heap.rs:35-37). -/
def peek (l : List (Item ν)) : Option (Item ν) := l[0]?

/-- `heap_pop` (binary_heap.rs:46-55): pop the last element, exchange it with the root, sift down. -/
def pop (l : List (Item ν)) : M (List (Item ν) × Option (Item ν)) :=
  match l.getLast? with
  | none => pure (l, none)
  | some item =>
    let rest := l.dropLast
    match rest with
    | [] => pure (rest, some item)
    | root :: _ => do
      let l' ← siftDownRange (rest.set 0 item) 0 rest.length
      pure (l', some root)

end Gearley.Heap
