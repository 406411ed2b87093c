import Verif.Model.Session

/-!
# Arbitrary call sequences

The public interface of the recognizer as a list of calls with what each call lets the client observe. Unlike
`Model/Session.lean` no protocol is imposed.
-/

namespace Gearley

/-- A call of the public interface (recognizer.rs). -/
inductive Call where
  | beginEarleme
  | setHint (sym : Nat)
  | clearHint
  | scan (sym value : Nat)
  | endEarleme
  | reset
  | isFinished
  | isExhausted
  | earleme
  | predictedSymbols
  | medialItems
  | trace
  | events
  | expectedTerminals
  deriving DecidableEq, Repr

/-- What a call returns; of items only dot and origin (nodes belong to the forest). -/
inductive Obs where
  | unit
  | bool (b : Bool)
  | num (n : Nat)
  | nums (l : List Nat)
  | pairs (l : List (Nat × Nat))
  | traces (l : List ((Nat × Nat) × Nat))
  deriving DecidableEq, Repr

namespace Rec
variable {σ ν : Type} (E : Env σ ν)

/-- One call; `ca` is the completion pass, see `endEarlemeWith`. -/
def callWith (ca : Rec σ ν → M (Rec σ ν)) (s : Rec σ ν) : Call → M (Rec σ ν × Obs)
  | .beginEarleme => pure (s.beginEarleme, .unit)
  | .setHint sym => pure (s.setHint sym, .unit)
  | .clearHint => pure (s.clearHint, .unit)
  | .scan sym value => do
    let s ← scan E s sym value
    pure (s, .unit)
  | .endEarleme => do
    let (s, ok) ← endEarlemeWith E ca s
    pure (s, .bool ok)
  | .reset => do
    let s ← reset E s
    pure (s, .unit)
  | .isFinished => do
    let b ← isFinished E s
    pure (s, .bool b)
  | .isExhausted => do
    let b ← s.isExhausted
    pure (s, .bool b)
  | .earleme => pure (s, .num s.earleme)
  | .predictedSymbols => do
    let l ← s.predictedSymbols
    pure (s, .nums l)
  | .medialItems => do
    let l ← s.medialItems
    pure (s, .pairs (l.map fun it => (it.dot, it.origin)))
  | .trace => do
    let l ← trace E s
    pure (s, .traces l)
  | .events => do
    let l ← events E s
    pure (s, .pairs l)
  | .expectedTerminals => do
    let l ← expectedTerminals E s
    pure (s, .nums l)

/-- A sequence of calls with all observations. -/
def callsWith (ca : Rec σ ν → M (Rec σ ν)) : List Call → Rec σ ν → M (Rec σ ν × List Obs)
  | [], s => pure (s, [])
  | c :: rest, s => do
    let (s, o) ← callWith E ca s c
    let (s, os) ← callsWith ca rest s
    pure (s, o :: os)

def call (s : Rec σ ν) (c : Call) : M (Rec σ ν × Obs) := callWith E (completeAll E) s c
def calls (cs : List Call) (s : Rec σ ν) : M (Rec σ ν × List Obs) := callsWith E (completeAll E) cs s

end Rec
end Gearley
