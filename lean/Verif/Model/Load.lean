import Verif.Model.Session

/-!
# Model of the character loop of `load_with_scanner` (gearley-load/src/lib.rs:488-553)

The crate does not compile as it stands (lines 390-401 use an undefined macro, line 482 is an incomplete match arm); the
character loop itself is complete. Lines 162-262 repeat it in an unused macro. The grammar of grammars comes from crate `cfg_load`, so the grammar and the map of names
are parameters. Evaluation of the node and what follows are not modelled. Line and column are `u32` in Rust, `Nat` here.
-/

namespace Gearley

/-- What the `match` on a character (lib.rs:521-537) does: a named terminal, `continue` with or without a new line, or an
error. -/
inductive CharKind where
  | term (name : String)
  | space
  | newline
  | other
  deriving DecidableEq, Repr

/-- The `match` on a character (lib.rs:521-537). -/
def charKind (ch : Char) : CharKind :=
  if ch = ':' then .term "colon"
  else if ch = ';' then .term "semicolon"
  else if ch = '=' then .term "eq_op"
  else if '0' ≤ ch ∧ ch ≤ '9' then .term "digit"
  else if ch = '|' then .term "pipe"
  else if ch = '*' then .term "op_mul"
  else if ch = '+' then .term "op_plus"
  else if ('a' ≤ ch ∧ ch ≤ 'z') ∨ ('A' ≤ ch ∧ ch ≤ 'Z') then .term "alpha"
  else if ch = ' ' then .space
  else if ch = '\n' then .newline
  else .other

/-- How `load_with_scanner` leaves its character loop and the look at the finished node: `LoadError::Parse` because of an
invalid character (line 536), `LoadError::Parse` because of a failed parse (lines 544, 552), or with a node to evaluate. -/
inductive LoadOutcome (ν : Type) where
  | invalid (line col : Nat)
  | failed (line col : Nat)
  | node (n : ν)
  deriving DecidableEq, Repr

namespace Rec
variable {σ ν : Type} (E : Env σ ν)

/-- The loop over the characters and the look at the finished node (lib.rs:520-553), from line `line` and column `col`.
`names` is `name_map` (line 515); indexing it with an unknown name panics. -/
def loadLoop (ca : Rec σ ν → M (Rec σ ν)) (names : String → Option Nat) :
    Nat → Nat → List Char → Rec σ ν → M (LoadOutcome ν)
  | line, col, [], s => do
    match ← finishedNode E s with
    | some n => pure (.node n)
    | none => pure (.failed line col)
  | line, col, ch :: rest, s =>
    match charKind ch with
    | .space => loadLoop ca names line col rest s
    | .newline => loadLoop ca names (line + 1) 1 rest s
    | .other => pure (.invalid line col)
    | .term name => do
      let terminal ← unwrapM (names name)
      let s ← scan E s terminal ch.toNat
      let (s, ok) ← endEarlemeWith E ca s
      if ok then loadLoop ca names line (col + 1) rest s else pure (.failed line col)

/-- `load_with_scanner` (lib.rs:517-553) from the construction of the recognizer; `f` is the new forest. -/
def load (names : String → Option Nat) (f : σ) (input : List Char) : M (LoadOutcome ν) := do
  let s ← new E f
  loadLoop E (completeAll E) names 1 1 input s

end Rec
end Gearley
