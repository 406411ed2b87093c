import Verif.Model.Evaluator

/-!
# Model of the calculators (gearley-example-grammars/src/precedenced_math/mod.rs, ambiguous_math/mod.rs)

Symbols are numbered in the order of their creation by `Cfg::sym`, rules in the order of their declaration. The grammars are
lists of pairs of a left-hand side and a right-hand side.

Values are `i32`; `none` is the value of a computation that panicked: arithmetic overflow (as in a debug build), division by
zero, an index out of bounds, `unreachable!()`. A panic ends the evaluation, so a rule with an argument `none` has the value
`none`.
-/

namespace Gearley.Calculator

/-- The result of an arithmetic operation on `i32`. -/
def i32 (n : Int) : Option Int := if -2147483648 ≤ n ∧ n ≤ 2147483647 then some n else none

/-- `a / b` on `i32`. -/
def divI32 (a b : Int) : Option Int := if b = 0 then none else i32 (a.tdiv b)

/-- `a0 * 10 + a1` on `i32`. -/
def shiftI32 (a0 a1 : Int) : Option Int := do
  let x ← i32 (a0 * 10)
  i32 (x + a1)

/-- The first three arguments (precedenced_math/mod.rs:59-61, ambiguous_math/mod.rs:41-43). A missing argument is `!0`. `none`
if an argument panicked. -/
def args3 (args : List (Option Int)) : Option (Int × Int × Int) :=
  if none ∈ args then none
  else do
    let a0 ← args.getD 0 (some (-1))
    let a1 ← args.getD 1 (some (-1))
    let a2 ← args.getD 2 (some (-1))
    pure (a0, a1, a2)

/-- `tokenize` (precedenced_math/mod.rs:86-101, ambiguous_math/mod.rs:73-88), where `chars` is `CHARS`, and the first `n`
symbols are those that are not tokens. All characters of `chars` are of one byte, so `find` returns their index. -/
def tokenizeWith (chars : List Char) (n : Nat) (input : List Char) : M (List Nat) :=
  let syms := List.range (chars.length + n)
  input.foldlM (fun result ch =>
    match chars.idxOf? ch with
    | some pos => do
      let s ← indexM syms (pos + n)
      pure (result ++ [s])
    | none => panicM .assert) []

namespace Precedenced

/-- `grammar` (precedenced_math/mod.rs:12-43): 0 sum, 1 product, 2 factor, 3 number, 4 `+`, 5 `-`, 6 `*`, 7 `/`, 8 `(`, 9 `)`,
10-19 the digits. -/
def grammar : List (Nat × List Nat) :=
  [(0, [0, 4, 1]), (0, [0, 5, 1]), (0, [1]),
   (1, [1, 6, 2]), (1, [1, 7, 2]), (1, [2]),
   (2, [8, 0, 9]), (2, [3])] ++
  (List.range 10).flatMap fun d => [(3, [10 + d, 3]), (3, [10 + d])]

/-- The table in `leaf` (precedenced_math/mod.rs:51). -/
def leafTable : List Int := [0, 0, 0, 0, 0, 0, 0, 0, 0, 0, 0, 1, 2, 3, 4, 5, 6, 7, 8, 9]

/-- The `match` in `product` (precedenced_math/mod.rs:63-78). -/
def action (n : Nat) (a0 a1 a2 : Int) : Option Int :=
  if n = 0 then i32 (a0 + a2)
  else if n = 1 then i32 (a0 - a2)
  else if n = 2 then some a0
  else if n = 3 then i32 (a0 * a2)
  else if n = 4 then divI32 a0 a2
  else if n = 5 then some a0
  else if n = 6 then some a1
  else if n = 7 then some a0
  else if n ∈ [8, 10, 12, 14, 16, 18, 20, 22, 24, 26] then shiftI32 a0 a1
  else if n ∈ [9, 11, 13, 15, 17, 19, 21, 23, 25, 27] then some a0
  else none

/-- `Evaluator` (precedenced_math/mod.rs:45-84). -/
def evaluator : Evaluator (Option Int) where
  leaf terminal _ := leafTable[terminal]?
  product n args := do
    let (a0, a1, a2) ← args3 args
    action n a0 a1 a2
  nulling _ results := results ++ [none]
  dflt := some 0

/-- `CHARS` (precedenced_math/mod.rs:87). -/
def chars : List Char := ['+', '-', '*', '/', '(', ')', '0', '1', '2', '3', '4', '5', '6', '7', '8', '9']

/-- `tokenize` (precedenced_math/mod.rs:86-101). -/
def tokenize (input : List Char) : M (List Nat) := tokenizeWith chars 4 input

end Precedenced

namespace Ambiguous

/-- `grammar` (ambiguous_math/mod.rs:12-24): 0 expr, 1 op, 2 num, 3 `+`, 4 `-`, 5 `*`, 6 `/`, 7-16 the digits. -/
def grammar : List (Nat × List Nat) :=
  [(0, [0, 1, 0]), (0, [2]), (1, [3]), (1, [4]), (1, [5]), (1, [6])] ++
  (List.range 10).flatMap fun d => [(2, [7 + d, 2]), (2, [7 + d])]

/-- The table in `leaf` (ambiguous_math/mod.rs:33). -/
def leafTable : List Int := [0, 0, 0, 0, 1, 2, 3, 0, 1, 2, 3, 4, 5, 6, 7, 8, 9]

/-- The `match` in `product` (ambiguous_math/mod.rs:47-65). -/
def action (n : Nat) (a0 a1 a2 : Int) : Option Int :=
  if n = 0 then
    if a1 = 0 then i32 (a0 + a2)
    else if a1 = 1 then i32 (a0 - a2)
    else if a1 = 2 then i32 (a0 * a2)
    else if a1 = 3 then divI32 a0 a2
    else none
  else if n = 1 then some a0
  else if n = 2 then some 0
  else if n = 3 then some 1
  else if n = 4 then some 2
  else if n = 5 then some 3
  else if n ∈ [6, 8, 10, 12, 14, 16, 18, 20, 22, 24] then shiftI32 a0 a1
  else if n ∈ [7, 9, 11, 13, 15, 17, 19, 21, 23, 25] then some a0
  else none

/-- `Evaluator` (ambiguous_math/mod.rs:26-71), without printing. -/
def evaluator : Evaluator (Option Int) where
  leaf terminal _ := leafTable[terminal]?
  product n args := do
    let (a0, a1, a2) ← args3 args
    action n a0 a1 a2
  nulling _ results := results ++ [none]
  dflt := some 0

/-- `CHARS` (ambiguous_math/mod.rs:74). -/
def chars : List Char := ['+', '-', '*', '/', '0', '1', '2', '3', '4', '5', '6', '7', '8', '9']

/-- `tokenize` (ambiguous_math/mod.rs:73-88). -/
def tokenize (input : List Char) : M (List Nat) := tokenizeWith chars 3 input

end Ambiguous
end Gearley.Calculator
