import Verif.Model.Effects

/-!
# Capacity hints (gearley-recognizer/src/perf_hint.rs)

The arithmetic is that of a debug build: overflow panics. `as isize` wraps around. The width of `usize` and the sizes of the
item types are parameters.
-/

namespace Gearley

/-- The target: number of bits of `usize`, and sizes in bytes of `usize`, `Item<()>` and of the items of the recognizer. -/
structure Target where
  bits : Nat
  word : Nat
  itemUnit : Nat
  itemUsize : Nat
  deriving DecidableEq, Repr

namespace Target

/-- `a + b` on `usize`. -/
def add (t : Target) (a b : Nat) : M Nat := if a + b < 2 ^ t.bits then pure (a + b) else panicM .overflow

/-- `a * b` on `usize`. -/
def mul (t : Target) (a b : Nat) : M Nat := if a * b < 2 ^ t.bits then pure (a * b) else panicM .overflow

/-- `a as isize`. -/
def toI (t : Target) (a : Nat) : Int := if a < 2 ^ (t.bits - 1) then a else a - 2 ^ t.bits

/-- `a - b` on `isize`. -/
def subI (t : Target) (a b : Int) : M Int :=
  if -2 ^ (t.bits - 1) ≤ a - b ∧ a - b < 2 ^ (t.bits - 1) then pure (a - b) else panicM .overflow

/-- `a / b` on `isize`: rounds towards zero; panics for a zero divisor and for `isize::MIN / -1`. -/
def divI (t : Target) (a b : Int) : M Int :=
  if b = 0 ∨ (a = -2 ^ (t.bits - 1) ∧ b = -1) then panicM .overflow else pure (a.tdiv b)

/-- `a as usize` of an `isize`. -/
def toU (t : Target) (a : Int) : Nat := (a % 2 ^ t.bits).toNat

/-- `Vec::with_capacity`: panics when more than `isize::MAX` bytes are asked for. (Running out of memory is not modelled.) -/
def reserve (t : Target) (size n : Nat) : M Unit :=
  if size * n < 2 ^ (t.bits - 1) then pure () else panicM .overflow

end Target

/-- `Vec2dCapacity` (gearley-vec2d/src/lib.rs:15-18). -/
structure Capacity where
  chart : Nat
  indices : Nat
  deriving DecidableEq, Repr

/-- The defaults of the trait `PerfHint` (perf_hint.rs:18-27). -/
def traitCompletionCapacity : Nat := 32
def traitMedialCapacity : Capacity := { chart := 512, indices := 128 }

/-- `DefaultPerfHint` (perf_hint.rs:30-34). -/
structure PerfHint where
  memoryLimit : Nat
  tokenLimit : Option Nat
  numSyms : Option Nat
  deriving DecidableEq, Repr

namespace PerfHint

/-- `default` (perf_hint.rs:36-44). -/
def default : PerfHint := { memoryLimit := 1024, tokenLimit := none, numSyms := none }

/-- `new` (perf_hint.rs:47-53). -/
def new (memoryLimit : Nat) : PerfHint := { memoryLimit, tokenLimit := none, numSyms := none }

/-- `with_token_count_and_num_syms` (perf_hint.rs:55-65). -/
def withTokenCountAndNumSyms (memoryLimit tokenCount numSyms : Nat) : PerfHint :=
  { memoryLimit, tokenLimit := some tokenCount, numSyms := some numSyms }

/-- `indices_capacity` (perf_hint.rs:67-69). -/
def indicesCapacity (t : Target) (p : PerfHint) : M Nat := t.add (p.tokenLimit.getD 64) 1

/-- `bytes_per_set` (perf_hint.rs:71-74). -/
def bytesPerSet (t : Target) (p : PerfHint) : M Nat := do
  let n ← t.add (p.numSyms.getD 128) 31
  let a ← t.mul (n / 32) 4
  let b ← t.mul 16 t.itemUnit
  t.add a b

/-- `forest_use` (perf_hint.rs:76-79). -/
def forestUse (t : Target) (p : PerfHint) : M Nat := do
  let a ← t.mul p.memoryLimit 2
  pure (a / 3)

/-- `completion_capacity` (perf_hint.rs:98-105). -/
def completionCapacity (p : PerfHint) : Nat :=
  if p.memoryLimit ≤ 999 then 16
  else if p.memoryLimit ≤ 499999 then 32
  else if p.memoryLimit ≤ 2000000 then 64
  else 128

/-- `chart_use` (perf_hint.rs:81-86). -/
def chartUse (t : Target) (p : PerfHint) : M Int := do
  let f ← forestUse t p
  let a ← t.subI (t.toI p.memoryLimit) (t.toI f)
  let i ← indicesCapacity t p
  let i ← t.mul i t.word
  let a ← t.subI a (t.toI i)
  let c ← t.mul p.completionCapacity t.itemUsize
  t.subI a (t.toI c)

/-- `set_use` (perf_hint.rs:88-90). -/
def setUse (t : Target) (p : PerfHint) : M Nat := do
  let a ← chartUse t p
  let b ← bytesPerSet t p
  let d ← t.divI a (t.toI b)
  pure (t.toU (max d 32))

/-- `medial_capacity` (perf_hint.rs:107-112). -/
def medialCapacity (t : Target) (p : PerfHint) : M Capacity := do
  let s ← setUse t p
  let c ← t.mul s 16
  let s ← setUse t p
  pure { chart := c, indices := s }

/-- The reservations of `Recognizer::with_forest_and_policy` (recognizer.rs:96-102) and `Vec2d::with_capacity`
(gearley-vec2d/src/lib.rs:25-33) that depend on the hint; `size` is the size of an item with a node of the forest. -/
def reserveAll (t : Target) (size : Nat) (p : PerfHint) : M Unit := do
  let c ← medialCapacity t p
  t.reserve t.word c.indices
  t.reserve size c.chart
  t.reserve size p.completionCapacity

end PerfHint
end Gearley
