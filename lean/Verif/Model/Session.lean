import Verif.Model.Recognizer

/-!
# Client sessions

How a client drives the recognizer at one input position: `begin_earleme`, then possibly a look-ahead hint, then `scan`
for every token, then `end_earleme` (the protocol of gearley-utils/src/parse.rs:67-106 and of the tests).
-/

namespace Gearley.Rec
variable {σ ν : Type} (E : Env σ ν)

/-- `for (sym, val) in tokens { rec.scan(sym, val) }`. -/
def scanAll (s : Rec σ ν) (toks : List (Nat × Nat)) : M (Rec σ ν) :=
  toks.foldlM (fun s t => scan E s t.1 t.2) s

/-- One position with an arbitrary completion pass (see `endEarlemeWith`). -/
def positionWith (ca : Rec σ ν → M (Rec σ ν)) (s : Rec σ ν) (toks : List (Nat × Nat)) : M (Rec σ ν × Bool) := do
  let s ← scanAll E s.beginEarleme toks
  endEarlemeWith E ca s

/-- One position: `begin_earleme`, scan every token, `end_earleme`. -/
def position (s : Rec σ ν) (toks : List (Nat × Nat)) : M (Rec σ ν × Bool) := positionWith E (completeAll E) s toks

/-- What the client does with the hint before scanning. -/
inductive HintOp where
  | keep
  | set (sym : Nat)
  | clear
  deriving DecidableEq, Repr

def applyHint (s : Rec σ ν) : HintOp → Rec σ ν
  | .keep => s
  | .set sym => s.setHint sym
  | .clear => s.clearHint

/-- A session: positions are processed until one reports failure. Result: the final state and the number of positions
that succeeded, with `true` if all did. -/
def sessionWith (ca : Rec σ ν → M (Rec σ ν)) : List (HintOp × List (Nat × Nat)) → Rec σ ν → M (Rec σ ν × Bool)
  | [], s => pure (s, true)
  | (h, toks) :: rest, s => do
    let (s, ok) ← positionWith E ca (applyHint s h) toks
    if ok then sessionWith ca rest s else pure (s, false)

def session : List (HintOp × List (Nat × Nat)) → Rec σ ν → M (Rec σ ν × Bool) := sessionWith E (completeAll E)

end Gearley.Rec

/-- A run of the loop of `complete_all_sums_entirely` (recognizer.rs:648-651) from `s` to `s'`, with the list of the groups
(origin, left-hand side) in the order in which they are completed. -/
inductive Gearley.Rec.Groups {σ ν : Type} (E : Gearley.Env σ ν) : Gearley.Rec σ ν → List (Nat × Nat) → Gearley.Rec σ ν → Prop
  | done {s} : Gearley.Rec.nextSum E s = pure none → Gearley.Rec.Groups E s [] s
  | next {s s1 s2 o A l} : Gearley.Rec.nextSum E s = pure (some (o, A)) →
      Gearley.Rec.completeEntireSum E s o A = pure s1 → Gearley.Rec.Groups E s1 l s2 → Gearley.Rec.Groups E s ((o, A) :: l) s2
