/-!
# Effects of the modelled Rust code

`M α` is the result of running a piece of Rust code:
* `none`            -- it never returns (infinite loop),
* `some (.error p)` -- it panics,
* `some (.ok a)`    -- it returns `a`.
-/

namespace Gearley

/-- Reasons for a Rust panic that occur in the modelled code. -/
inductive Panic where
  /-- slice / `Vec` / bit row index out of bounds -/
  | index
  /-- `Option::unwrap` / `expect` on `None` -/
  | unwrap
  /-- failed `assert!` / `debug_assert!` -/
  | assert
  /-- `unreachable!()` -/
  | unreachable
  /-- `todo!()` -/
  | todo
  /-- integer overflow (debug builds) -/
  | overflow
  deriving DecidableEq, Repr

/-- Outcome of a Rust computation: divergence, panic, or a value. -/
abbrev M := ExceptT Panic Option

deriving instance DecidableEq for Except

instance {α} [DecidableEq α] : DecidableEq (M α) :=
  inferInstanceAs (DecidableEq (Option (Except Panic α)))

/-- The computation that never returns. -/
def diverge {α} : M α := (none : Option (Except Panic α))

/-- The computation that panics. -/
def panicM {α} (p : Panic) : M α := throw p

/-- `Option::unwrap`. -/
def unwrapM {α} : Option α → M α
  | some a => pure a
  | none => panicM .unwrap

/-- `slice[i]` on a `Vec`/slice: panics when out of bounds. -/
def indexM {α} (l : List α) (i : Nat) : M α :=
  match l[i]? with
  | some a => pure a
  | none => panicM .index

/-- `slice[a..]`: panics when `a > len`. -/
def sliceFromM {α} (l : List α) (a : Nat) : M (List α) :=
  if a ≤ l.length then pure (l.drop a) else panicM .index

/-- `slice[a..b]`: panics when `a > b` or `b > len`. -/
def sliceM {α} (l : List α) (a b : Nat) : M (List α) :=
  if a ≤ b ∧ b ≤ l.length then pure ((l.take b).drop a) else panicM .index

/-- `slice[i] = x`: panics when out of bounds. -/
def setM {α} (l : List α) (i : Nat) (x : α) : M (List α) :=
  if i < l.length then pure (l.set i x) else panicM .index

/-- `a - b` on `usize` in a debug build: panics on underflow. -/
def subM (a b : Nat) : M Nat :=
  if b ≤ a then pure (a - b) else panicM .overflow

/-- `assert!`. -/
def assertM (c : Bool) : M Unit :=
  if c then pure () else panicM .assert

/-- A Rust `while`/`loop`: repeat `f` until it yields a result (`Sum.inr`).
The least fixed point: `none` exactly when the loop never ends. -/
def loop {α β} (f : α → M (α ⊕ β)) (a : α) : M β := do
  match ← f a with
  | .inl a' => loop f a'
  | .inr b => pure b
partial_fixpoint

/-- Fuelled version of `loop`, used only to compute concrete runs. -/
def loopFuel {α β} (f : α → M (α ⊕ β)) : Nat → α → M β
  | 0, _ => diverge
  | n+1, a => do
    match ← f a with
    | .inl a' => loopFuel f n a'
    | .inr b => pure b

end Gearley
