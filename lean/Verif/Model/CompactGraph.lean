import Verif.Model.Evaluator

/-!
# The byte graph of the compact bocage (compact-bocage/src/{graph,node}.rs)

Bytes are natural numbers; the graph is a list of bytes. `from_bytes`/`bytes_of` of `bytemuck` are modelled as
little-endian conversions; the alignment check of `from_bytes` on a `[u8; 4]` is not modelled.
-/

namespace Gearley.Compact

/-- `enum Node` (node.rs:6-34). -/
inductive Node where
  | beginSum
  | endSum
  | summand (action factors : Nat)
  | product (action factors : Nat)
  | rule (left right : Nat)
  | leaf (symbol values : Nat)
  | nullingLeaf (symbol : Nat)
  deriving DecidableEq, Repr

/-- `[discr, left, right]` (graph.rs:25-43 and 117-134); `none` for the two nodes that return early. The three numbers
are of type `u32`. -/
def Node.words : Node → Option (Nat × Nat × Nat)
  | .beginSum => none
  | .endSum => none
  | .product action factors => some (2, u32 action, u32 factors)
  | .summand action factors => some (3, u32 action, u32 factors)
  | .rule left right => some (4, u32 left, u32 right)
  | .leaf symbol values => some (5, u32 symbol, u32 values)
  | .nullingLeaf symbol => some (6, u32 symbol, 0)

/-- `u32::to_le_bytes`. -/
def leBytes (x : Nat) : List Nat := [x % 256, x / 2 ^ 8 % 256, x / 2 ^ 16 % 256, x / 2 ^ 24 % 256]

/-- The `while` loop that counts the bytes of a `u32` (graph.rs:46-51). -/
def countBytes (x : Nat) : Nat :=
  if x = 0 then 0 else countBytes (x / 256) + 1

/-- The closure `f` (graph.rs:44-53) without the bytes. -/
def byteLen (x : Nat) : Nat := max (countBytes x) 1

/-- `u32::from_le_bytes`. -/
def fromLe : List Nat → Nat
  | [] => 0
  | b :: bs => b + 256 * fromLe bs

/-- Bytes written by `push` (graph.rs:24-61). -/
def encode (n : Node) : List Nat :=
  match n with
  | .beginSum => [0]
  | .endSum => [1]
  | n =>
    match n.words with
    | none => []
    | some (discr, left, right) =>
      let lLen := byteLen left
      let rLen := byteLen right
      (discr ||| ((lLen - 1) <<< 3) ||| ((rLen - 1) <<< 5)) :: ((leBytes left).take lLen ++ (leBytes right).take rLen)

/-- `Graph::push` (graph.rs:24-61). -/
def push (g : List Nat) (n : Node) : List Nat := g ++ encode n

/-- Bytes written by `push_expanded` (graph.rs:116-138). -/
def encodeExpanded (n : Node) : List Nat :=
  match n with
  | .beginSum => [0]
  | .endSum => [1]
  | n =>
    match n.words with
    | none => []
    | some (discr, left, right) => (discr ||| 0b1111000) :: (leBytes left ++ leBytes right)

/-- `Graph::push_expanded` (graph.rs:116-138). -/
def pushExpanded (g : List Nat) (n : Node) : List Nat := g ++ encodeExpanded n

/-- `Graph::len` (graph.rs:63-65). -/
def len (g : List Nat) : Nat := u32 g.length

/-- The last `match` of `get` (graph.rs:79-102). -/
def decode (discr left right : Nat) : M Node :=
  match discr with
  | 0 => pure .beginSum
  | 1 => pure .endSum
  | 2 => pure (.product left right)
  | 3 => pure (.summand left right)
  | 4 => pure (.rule left right)
  | 5 => pure (.leaf left right)
  | 6 => pure (.nullingLeaf left)
  | _ => panicM .unreachable

/-- `Graph::get` (graph.rs:67-103). -/
def get (g : List Nat) (index : Nat) : M Node := do
  let head ← indexM g index
  let discr := head &&& 0b111
  let one := if discr > 1 then 1 else 0
  let lLen := ((head >>> 3) &&& 0b11) + one
  let rLen := ((head >>> 5) &&& 0b11) + one
  let mid := index + 1 + lLen
  let left ← sliceM g (index + 1) mid
  let left := fromLe left
  let right ← sliceM g mid (mid + rLen)
  let right := fromLe right
  decode discr left right

/-- `Graph::get_node_size` (graph.rs:105-114). -/
def getNodeSize (g : List Nat) (index : Nat) : M Nat := do
  let head ← indexM g index
  let discr := head &&& 0b111
  if discr < 2 then pure 1
  else pure (1 + (((head >>> 3) &&& 0b11) + 1) + (((head >>> 5) &&& 0b11) + 1))

end Gearley.Compact
