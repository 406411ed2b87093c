/-!
# Specification: arithmetic expressions

Expressions of decimal numbers, the four operations and parentheses, their text, and their value in 32-bit arithmetic.
`Grouped` says that an expression is grouped as usual: multiplication and division bind stronger than addition and
subtraction, and operations of the same strength are grouped from the left.
-/

namespace Gearley.Spec

inductive Op where
  | add | sub | mul | div
  deriving DecidableEq, Repr

/-- How strong the operation binds. -/
def Op.level : Op → Nat
  | .add | .sub => 0
  | .mul | .div => 1

def Op.char : Op → Char
  | .add => '+'
  | .sub => '-'
  | .mul => '*'
  | .div => '/'

/-- An expression with its parentheses. -/
inductive Expr where
  | num (digits : List (Fin 10))
  | bin (op : Op) (left right : Expr)
  | paren (e : Expr)
  deriving DecidableEq, Repr

namespace Expr

def level : Expr → Nat
  | num _ => 2
  | bin op _ _ => op.level
  | paren _ => 2

/-- Numbers have digits. The left operand binds at least as strong as the operation, the right operand stronger. -/
def Grouped : Expr → Prop
  | num ds => ds ≠ []
  | bin op l r => Grouped l ∧ Grouped r ∧ op.level ≤ l.level ∧ op.level < r.level
  | paren e => Grouped e

/-- The character for a digit. -/
def digitChar (d : Fin 10) : Char := Char.ofNat (48 + d)

/-- The text of an expression. -/
def text : Expr → List Char
  | num ds => ds.map digitChar
  | bin op l r => l.text ++ op.char :: r.text
  | paren e => '(' :: (e.text ++ [')'])

/-- The number written in decimal notation. -/
def decimal (ds : List (Fin 10)) : Nat := ds.foldl (fun n d => 10 * n + d.val) 0

/-- The number if it is representable in 32 bits. -/
def fits (n : Int) : Option Int := if -2147483648 ≤ n ∧ n ≤ 2147483647 then some n else none

/-- The result of an operation in 32-bit arithmetic: division rounds towards zero; `none` if there is no result or it is not
representable. -/
def compute : Op → Int → Int → Option Int
  | .add, a, b => fits (a + b)
  | .sub, a, b => fits (a - b)
  | .mul, a, b => fits (a * b)
  | .div, a, b => if b = 0 then none else fits (a.tdiv b)

/-- The value of an expression in 32-bit arithmetic; `none` if a number or an intermediate result is not representable. -/
def value : Expr → Option Int
  | num ds => fits (decimal ds)
  | bin op l r => do
    let a ← l.value
    let b ← r.value
    compute op a b
  | paren e => e.value

/-- All numbers in the expression have the property. -/
def Numbers (P : List (Fin 10) → Prop) : Expr → Prop
  | num ds => P ds
  | bin _ l r => Numbers P l ∧ Numbers P r
  | paren e => Numbers P e

/-- There are no parentheses, and numbers have digits. Operations are grouped in any way. -/
def Plain : Expr → Prop
  | num ds => ds ≠ []
  | bin _ l r => Plain l ∧ Plain r
  | paren _ => False

end Expr

/-- The number of operations in a text. -/
def opCount (s : List Char) : Nat := s.countP fun ch => ch = '+' ∨ ch = '-' ∨ ch = '*' ∨ ch = '/'

end Gearley.Spec
