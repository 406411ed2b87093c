import Verif.Props.Containers
import Verif.Proofs.Derivation
import Verif.Proofs.ChartSound
import Verif.Proofs.Sim
import Verif.Proofs.Language
import Verif.Proofs.Tables
import Verif.Proofs.Transfer
import Verif.Proofs.Drivers
import Verif.Props.Recognition
import Verif.Props.Independence
import Verif.Props.Chart
import Verif.Props.Tables
import Verif.Props.Forest
import Verif.Props.Evaluate
import Verif.Props.CartesianProduct
import Verif.Props.PerfHint
import Verif.Props.Remap
import Verif.Props.Observers
import Verif.Props.Drivers
import Verif.Props.Cycles
import Verif.Props.CyclicParse
import Verif.Proofs.UserCycle
import Verif.Props.UserCycle
import Verif.Proofs.UserForest
import Verif.Props.UserForest
import Verif.Props.Manual
import Verif.Props.Reset
import Verif.Props.Load
import Verif.Props.Determinism
import Verif.Props.Cost
import Verif.Props.Packed
import Verif.Props.FromGrammar
import Verif.Props.Order
import Verif.Props.Quadratic
import Verif.Props.Lower
import Verif.Props.Linear
import Verif.Model.Machine
import Verif.Proofs.Machine
import Verif.Proofs.Retained
import Verif.Props.Retained
import Verif.Spec.Seen
import Verif.Proofs.Seen
import Verif.Props.Lookahead
import Verif.Proofs.Size
import Verif.Props.Size
import Verif.Props.Machine
import Verif.Examples.Conformance
import Verif.Spec.User
import Verif.Proofs.User
import Verif.Proofs.UserRename
import Verif.Proofs.UserParse
import Verif.Proofs.UserValues
import Verif.Proofs.UserExists
import Verif.Props.User
import Verif.Model.Calculator
import Verif.Spec.Arithmetic
import Verif.Proofs.Arithmetic
import Verif.Proofs.Calculator
import Verif.Proofs.CalculatorExists
import Verif.Props.NewBocage
import Verif.Props.Calculator
import Verif.Spec.EvalWork
import Verif.Proofs.EvalRounds
import Verif.Proofs.EvalRoundsCompact
import Verif.Proofs.EvalWork
import Verif.Examples.Nulls
import Verif.Props.EvalCost
import Verif.Spec.UserPacked
import Verif.Proofs.UserPacked
import Verif.Proofs.UserPackedRename
import Verif.Proofs.UserPackedParse
import Verif.Props.UserPacked
import Verif.Proofs.AmbiguousMath
import Verif.Proofs.AmbiguousExists
import Verif.Props.AmbiguousMath
import Verif.Model.Logging
import Verif.Spec.Protocol
import Verif.Proofs.Logging
import Verif.Props.Logging
import Verif.Model.CGrammar
import Verif.Spec.CGrammar
import Verif.Proofs.Abstract
import Verif.Proofs.CGrammar
import Verif.Props.CGrammar
import Verif.Props.UserDrivers
import Verif.Proofs.UserPrefix
import Verif.Props.UserPosition
import Verif.Props.UserPredict
import Verif.Props.ForestStarts
import Verif.Model.Wasm
import Verif.Proofs.Wasm
import Verif.Props.Wasm
import Verif.Spec.LR
import Verif.Spec.SLR
import Verif.Spec.LRTable
import Verif.Spec.Follow
import Verif.Proofs.LR
import Verif.Proofs.LRChart
import Verif.Proofs.LRCount
import Verif.Proofs.LRUser
import Verif.Proofs.SLR
import Verif.Proofs.LRTable
import Verif.Proofs.Follow
import Verif.Props.LR
import Verif.Props.LRCalculator
import Verif.Props.LREvery
import Verif.Spec.Ahead
import Verif.Proofs.Ahead
import Verif.Proofs.AheadRun
import Verif.Props.Ahead
import Verif.Spec.Chains
import Verif.Proofs.Climb
import Verif.Proofs.Many
import Verif.Props.CostAny
import Verif.Props.NeedsOrder
import Verif.Proofs.UniquePacks
import Verif.Props.OneTree
import Verif.Proofs.ForestLower
import Verif.Props.ForestLower
import Verif.Model.Width
import Verif.Proofs.Width
import Verif.Props.Width
import Verif.Props.AheadParse
import Verif.Props.CyclicPosition
