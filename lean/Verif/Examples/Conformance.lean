import Verif.Props.Evaluate

/-!
# The repository's own tests, run on the model

Each section takes one test of /repo (cited), writes down the grammar as crate `cfg` leaves it (wrapped, binarized, without
empty rules, numbered), and computes in the kernel what the model does on the input of the test.

The model agrees with the expectations of the tests except in two places, where the expectation does not describe the code:

* `test_ambiguous_arithmetic` (gearley/tests/tests.rs:14-36) expects one value per tree, `[2, 1, 3, 7, 8]`. The code evaluates
  an ambiguous operand to several arguments of one call, so there are three values, `[2, 0, 8]` (see `C20_ambiguous_simple`).
* `test_leo` (gearley/tests/test_leo.rs:5-29) expects 18 sums. That is the number without look-ahead. `parse` gives hints and the
  default policy uses them, so with exact FOLLOW sets there are 6.
-/

namespace Gearley.Example.Conformance
open Gearley Gearley.Example

/-- The tables of a processed grammar. -/
def build (c nulling : Cfg) (first follow : List (Nat × List Nat)) : DefaultGrammar :=
  match fromProcessedWith (Build.rootOfFuel 60) c {} nulling first follow with
  | some (.ok g) => g
  | _ => {}

/-- `parse` on a fresh recognizer; result and forest. -/
def parsed {σ ν : Type} (E : Env σ ν) (f : σ) (u : List Nat) : M (Except ParseError Bool × σ) := do
  let s ← Rec.new E f
  let (s, r) ← Rec.parseWith E (Rec.completeAllFuel E 200) s u
  pure (r, s.forest)

/-- `parse`, `finished_node().unwrap()`, `into_forest().evaluate(..)`. -/
def evaluated {σ α : Type} (E : Env σ Nat) (mk : M σ) (evalF : σ → Nat → M (σ × List α)) (u : List Nat) :
    M (Except ParseError Bool × List α) := do
  let f ← mk
  let s ← Rec.new E f
  let (s, r) ← Rec.parseWith E (Rec.completeAllFuel E 200) s u
  let n ← Rec.finishedNode E s
  let n ← unwrapM n
  let (_, y) ← evalF s.forest n
  pure (r, y)

/-- Parse again and again, with `reset` in between (gearley/tests/test_recognizer.rs:34-38). -/
def parsedAgain {σ ν : Type} (E : Env σ ν) (u : List Nat) : Nat → Rec σ ν → M Bool
  | 0, _ => pure true
  | n + 1, s => do
    let (s, r) ← Rec.parseWith E (Rec.completeAllFuel E 200) s u
    if r = .ok true then do
      let s ← Rec.reset E s
      parsedAgain E u n s
    else pure false

def simple (g : DefaultGrammar) : Env Simple.Bocage Nat := { g := g, F := Simple.forest, sorter := sorter }
def compact (g : DefaultGrammar) : Env Compact.Bocage Nat := { g := g, F := Compact.forest, sorter := sorter }
def recognizing (g : DefaultGrammar) : Env Unit Unit := { g := g, F := nullForest, sorter := sorter }

/-! ## gearley/tests/test_leo.rs:5-29

`start ::= rr`, `rr ::= rep rr | rep`. Symbols: 0 eof, 1 sof, 2 root, 3 start, 4 rr, 5 rep; generated: 6. -/

def leoCfg : Cfg where
  numSyms := 7
  rules := [
    { lhs := 2, rhs := [6, 0], dots := dots3 },
    { lhs := 3, rhs := [4], origin := some 0, dots := dots3 },
    { lhs := 4, rhs := [5, 4], origin := some 1, dots := dots3 },
    { lhs := 4, rhs := [5], origin := some 2, dots := dots3 },
    { lhs := 6, rhs := [1, 3], dots := dots3 }]
  wrappedRoots := [⟨2, 1, 0, 3⟩]

def leo : DefaultGrammar :=
  build leoCfg noRules [(2, [1]), (3, [5]), (4, [5]), (6, [1])] [(3, [0]), (4, [0]), (5, [0, 5]), (6, [0]), (0, []), (1, [5])]

/-- `InstrBocage` (test_leo.rs:31-76): sums, leaves, products, summands. -/
def instr : ForestOps (Nat × Nat × Nat × Nat) Unit where
  beginSum f := pure f
  pushSummand f _ := pure (f.1, f.2.1, f.2.2.1, f.2.2.2 + 1)
  sum f _ _ := pure ((f.1 + 1, f.2), ())
  product f _ _ := pure ((f.1, f.2.1, f.2.2.1 + 1, f.2.2.2), ())
  leaf f _ _ _ := pure ((f.1, f.2.1 + 1, f.2.2), ())
  nulling _ _ := pure ()

-- the expectation of the test, met without look-ahead
example : parsed { g := leo, F := instr, sorter := sorter, lookahead := false } (0, 0, 0, 0) [5, 5, 5, 5] =
    pure (.ok true, (18, 5, 10, 18)) := by decide +kernel
-- with look-ahead, only the last position completes anything
example : parsed { g := leo, F := instr, sorter := sorter } (0, 0, 0, 0) [5, 5, 5, 5] =
    pure (.ok true, (6, 5, 4, 6)) := by decide +kernel

/-! ## gearley/tests/test_nulling.rs:30-46

`start ::= ε`. Symbols: 0 eof, 1 sof, 2 root, 3 start; generated: 4. -/

def trivialCfg : Cfg where
  numSyms := 5
  rules := [
    { lhs := 2, rhs := [4, 0], dots := dots3 },
    { lhs := 4, rhs := [1], nullable := some (3, true), dots := dots3 }]
  wrappedRoots := [⟨2, 1, 0, 3⟩]

def trivialNulling : Cfg := { numSyms := 5, rules := [{ lhs := 3, rhs := [], origin := some 0, dots := dots3 }], wrappedRoots := [] }

def trivialGrammar : DefaultGrammar :=
  build trivialCfg trivialNulling [(2, [1]), (4, [1])] [(4, [0]), (0, []), (1, [0])]

/-- `NullingEval` (test_nulling.rs:9-28). -/
def nullingEval (start : Nat) : Evaluator Bool where
  leaf _ _ := false
  product _ _ := false
  nulling symbol results := results ++ [symbol == start]
  dflt := false

example : evaluated (simple trivialGrammar) (Simple.Bocage.new trivialGrammar.forestInfo)
    (fun b => b.evaluateFuel 100 (nullingEval 3)) [] = pure (.ok true, [true]) := by decide +kernel

/-! ## gearley/tests/test_nulling.rs:48-217

`start ::= a b c d foo`, `a ::= ε`, …, `d ::= ε`. Symbols: 0 eof, 1 sof, 2 root, 3 start, 4 foo, 5 a, 6 b, 7 c, 8 d, 9 = `a b`,
10 = `a b c`, 11 = `a b c d`; generated: 12. -/

def nullsCfg : Cfg where
  numSyms := 13
  rules := [
    { lhs := 2, rhs := [12, 0], dots := dots3 },
    { lhs := 3, rhs := [4], origin := some 0, nullable := some (11, false), dots := dots3 },
    { lhs := 12, rhs := [1, 3], dots := dots3 }]
  wrappedRoots := [⟨2, 1, 0, 3⟩]

def nullsNulling : Cfg where
  numSyms := 13
  rules := [
    { lhs := 5, rhs := [], origin := some 1, dots := dots3 },
    { lhs := 6, rhs := [], origin := some 2, dots := dots3 },
    { lhs := 7, rhs := [], origin := some 3, dots := dots3 },
    { lhs := 8, rhs := [], origin := some 4, dots := dots3 },
    { lhs := 9, rhs := [5, 6], dots := dots3 },
    { lhs := 10, rhs := [9, 7], dots := dots3 },
    { lhs := 11, rhs := [10, 8], dots := dots3 }]
  wrappedRoots := []

def nulls : DefaultGrammar :=
  build nullsCfg nullsNulling [(2, [1]), (3, [4]), (12, [1])] [(3, [0]), (4, [0]), (12, [0]), (0, []), (1, [4])]

/-- `NullingIntermediateEval` (test_nulling.rs:50-96, 129-175). -/
def nullsEval : Evaluator Int where
  leaf symbol _ := if symbol = 4 then 3 else -1000
  product action args := if action = 0 then args.foldl (· + ·) 0 else -1000
  nulling symbol results := results ++ [if symbol = 5 then 10 else 100]
  dflt := 0

example : evaluated (simple nulls) (Simple.Bocage.new nulls.forestInfo) (fun b => b.evaluateFuel 100 nullsEval) [4] =
    pure (.ok true, [313]) := by decide +kernel
example : evaluated (compact nulls) (Compact.Bocage.new nulls.forestInfo) (fun b => b.evaluateFuel 100 nullsEval) [4] =
    pure (.ok true, [313]) := by decide +kernel

/-! ## gearley/tests/test_recognizer.rs:5-39, gearley-utils/tests/test_parse.rs:8-43

`start ::= nested terminal`, `nested ::= terminal terminal`. Symbols: 0 eof, 1 sof, 2 root, 3 start, 4 nested, 5 terminal;
generated: 6. -/

def nestedCfg : Cfg where
  numSyms := 7
  rules := [
    { lhs := 2, rhs := [6, 0], dots := dots3 },
    { lhs := 3, rhs := [4, 5], origin := some 0, dots := dots3 },
    { lhs := 4, rhs := [5, 5], origin := some 1, dots := dots3 },
    { lhs := 6, rhs := [1, 3], dots := dots3 }]
  wrappedRoots := [⟨2, 1, 0, 3⟩]

def nested : DefaultGrammar :=
  build nestedCfg noRules [(2, [1]), (3, [5]), (4, [5]), (6, [1])] [(3, [0]), (4, [5]), (5, [0, 5]), (6, [0]), (0, []), (1, [5])]

example : parsed (recognizing nested) () [5, 5, 5] = pure (.ok true, ()) := by decide +kernel
example : (Rec.new (recognizing nested) () >>= parsedAgain (recognizing nested) [5, 5, 5] 20) = pure true := by decide +kernel

/-! ## gearley/tests/test_recognizer.rs:41-63

`start ::= a b c d`, `c ::= ε | e`, `b ::= e`. Symbols: 0 eof, 1 sof, 2 root, 3 start, 4 a, 5 b, 6 c, 7 d, 8 e;
generated: 9 = `sof start`, 10 = `a b`, 11 = `a b c`. -/

def gensymCfg : Cfg where
  numSyms := 12
  rules := [
    { lhs := 2, rhs := [9, 0], dots := dots3 },
    { lhs := 3, rhs := [11, 7], origin := some 0, dots := dots3 },
    { lhs := 5, rhs := [8], origin := some 3, dots := dots3 },
    { lhs := 6, rhs := [8], origin := some 2, dots := dots3 },
    { lhs := 9, rhs := [1, 3], dots := dots3 },
    { lhs := 10, rhs := [4, 5], dots := dots3 },
    { lhs := 11, rhs := [10, 6], dots := dots3 },
    { lhs := 11, rhs := [10], nullable := some (6, true), dots := dots3 }]
  wrappedRoots := [⟨2, 1, 0, 3⟩]

def gensymNulling : Cfg := { numSyms := 12, rules := [{ lhs := 6, rhs := [], origin := some 1, dots := dots3 }], wrappedRoots := [] }

def gensym : DefaultGrammar :=
  build gensymCfg gensymNulling [(2, [1]), (3, [4]), (5, [8]), (6, [8]), (9, [1]), (10, [4]), (11, [4])]
    [(3, [0]), (4, [8]), (5, [7, 8]), (6, [7]), (7, [0]), (8, [7, 8]), (9, [0]), (10, [7, 8]), (11, [7]), (0, []), (1, [4])]

example : (Rec.new (recognizing gensym) () >>= parsedAgain (recognizing gensym) [4, 8, 7] 20) = pure true := by decide +kernel

/-! ## gearley/tests/test_sequence.rs:36-60

Three times `plus minus`, as one rule `start ::= plus minus plus minus plus minus`. Symbols: 0 eof, 1 sof, 2 plus, 3 minus,
4 root, 5 start; generated: 6 = `sof start`, 7 to 10 the prefixes of the rule. -/

def seqCfg : Cfg where
  numSyms := 11
  rules := [
    { lhs := 4, rhs := [6, 0], dots := dots3 },
    { lhs := 5, rhs := [10, 3], origin := some 0, dots := dots3 },
    { lhs := 6, rhs := [1, 5], dots := dots3 },
    { lhs := 7, rhs := [2, 3], dots := dots3 },
    { lhs := 8, rhs := [7, 2], dots := dots3 },
    { lhs := 9, rhs := [8, 3], dots := dots3 },
    { lhs := 10, rhs := [9, 2], dots := dots3 }]
  wrappedRoots := [⟨4, 1, 0, 5⟩]

def seqGrammar : DefaultGrammar :=
  build seqCfg noRules [(4, [1]), (5, [2]), (6, [1]), (7, [2]), (8, [2]), (9, [2]), (10, [2])]
    [(5, [0]), (2, [3]), (3, [0, 2]), (6, [0]), (7, [2]), (8, [3]), (9, [2]), (10, [3]), (0, []), (1, [2])]

/-- `Eval` (test_sequence.rs:9-34). -/
def seqEval : Evaluator Int where
  leaf terminal _ := if terminal = 2 then 1 else -1
  product _ args := args.length
  nulling _ results := results
  dflt := 0

example : evaluated (simple seqGrammar) (Simple.Bocage.new seqGrammar.forestInfo) (fun b => b.evaluateFuel 200 seqEval)
    [2, 3, 2, 3, 2, 3] = pure (.ok true, [6]) := by decide +kernel

/-! ## gearley/tests/tests.rs:14-36

`expr ::= expr op expr | num`, `op ::= + | - | * | /`, `num ::= digit num | digit` (ten digits), on `2-0*3+1`. Only the operators
and digits of the input are kept. Symbols: 0 eof, 1 sof, 2 root, 3 expr, 4 op, 5 num, 6 +, 7 -, 8 *, 9 to 12 the digits 0 to 3;
generated: 13 = `sof expr`, 14 = `expr op`. -/

def mathCfg : Cfg where
  numSyms := 15
  rules := [
    { lhs := 2, rhs := [13, 0], dots := dots3 },
    { lhs := 3, rhs := [14, 3], origin := some 0, dots := dots3 },
    { lhs := 3, rhs := [5], origin := some 1, dots := dots3 },
    { lhs := 4, rhs := [6], origin := some 2, dots := dots3 },
    { lhs := 4, rhs := [7], origin := some 3, dots := dots3 },
    { lhs := 4, rhs := [8], origin := some 4, dots := dots3 },
    { lhs := 5, rhs := [9, 5], origin := some 6, dots := dots3 },
    { lhs := 5, rhs := [9], origin := some 7, dots := dots3 },
    { lhs := 5, rhs := [10, 5], origin := some 8, dots := dots3 },
    { lhs := 5, rhs := [10], origin := some 9, dots := dots3 },
    { lhs := 5, rhs := [11, 5], origin := some 10, dots := dots3 },
    { lhs := 5, rhs := [11], origin := some 11, dots := dots3 },
    { lhs := 5, rhs := [12, 5], origin := some 12, dots := dots3 },
    { lhs := 5, rhs := [12], origin := some 13, dots := dots3 },
    { lhs := 13, rhs := [1, 3], dots := dots3 },
    { lhs := 14, rhs := [3, 4], dots := dots3 }]
  wrappedRoots := [⟨2, 1, 0, 3⟩]

def digits : List Nat := [9, 10, 11, 12]
def operators : List Nat := [6, 7, 8]

def math : DefaultGrammar :=
  build mathCfg noRules
    [(2, [1]), (3, digits), (4, operators), (5, digits), (13, [1]), (14, digits)]
    [(1, digits), (3, 0 :: operators), (4, digits), (5, 0 :: operators), (6, digits), (7, digits), (8, digits),
      (9, 0 :: operators ++ digits), (10, 0 :: operators ++ digits), (11, 0 :: operators ++ digits),
      (12, 0 :: operators ++ digits), (13, [0]), (14, digits), (0, [])]

/-- `ambiguous_math::Evaluator` (gearley-example-grammars/src/ambiguous_math/mod.rs:26-68). -/
def mathEval : Evaluator Int where
  leaf s _ := ([0, 0, 0, 0, 0, 0, 0, 1, 2, 0, 1, 2, 3] : List Int).getD s 77
  product a args :=
    let a0 := args.getD 0 (-1)
    let a1 := args.getD 1 (-1)
    let a2 := args.getD 2 (-1)
    if a = 0 then (if a1 = 0 then a0 + a2 else if a1 = 1 then a0 - a2 else a0 * a2)
    else if a = 1 then a0 else if a = 2 then 0 else if a = 3 then 1 else if a = 4 then 2
    else if a % 2 = 0 then a0 * 10 + a1 else a0
  nulling _ r := r
  dflt := 0

-- 2-0*3: the two values of the two trees, as expected for an input without ambiguous operands
example : evaluated (simple math) (Simple.Bocage.new math.forestInfo) (fun b => b.evaluateFuel 1000 mathEval)
    [11, 7, 9, 8, 12] = pure (.ok true, [2, 6]) := by decide +kernel
-- 2-0*3+1: three values, none for the trees 1, 3 and 7 of the test
example : evaluated (simple math) (Simple.Bocage.new math.forestInfo) (fun b => b.evaluateFuel 1000 mathEval)
    [11, 7, 9, 8, 12, 6, 10] = pure (.ok true, [2, 0, 8]) := by decide +kernel

end Gearley.Example.Conformance
