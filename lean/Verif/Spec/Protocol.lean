import Verif.Model.Api

/-! # Specification: positions that were begun and not ended -/

namespace Gearley.Spec
open Gearley

/-- After these calls with these results: `begin_earleme` was called, and since then neither `end_earleme` with success nor
`reset`. `p` says so for the calls before. -/
def pendingFrom (p : Bool) : List (Call × Obs) → Bool
  | [] => p
  | (.beginEarleme, _) :: rest => pendingFrom true rest
  | (.endEarleme, .bool true) :: rest => pendingFrom false rest
  | (.reset, _) :: rest => pendingFrom false rest
  | _ :: rest => pendingFrom p rest

/-- Whenever `begin_earleme` was called no position was pending. -/
def pairedFrom (p : Bool) : List (Call × Obs) → Bool
  | [] => true
  | x :: rest => (x.1 != .beginEarleme || !p) && pairedFrom (pendingFrom p [x]) rest

end Gearley.Spec
