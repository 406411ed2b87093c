import Verif.Model.CGrammar

/-!
# Specification: strings of C tokens
-/

namespace Gearley.Spec
open Gearley

/-- `words` is a C program according to the grammar. -/
def CProgram (words : List CSym) : Prop := Yields cRules CSym.start.num (words.map CSym.num)

/-- A pair of brackets. -/
inductive Pair : CSym → CSym → Prop
  | parens : Pair .lparen .rparen
  | braces : Pair .lbrace .rbrace

/-- Parentheses and braces are nested properly. -/
inductive Nested : List CSym → Prop
  | nil : Nested []
  | other {a : CSym} {u : List CSym} : (∀ b, ¬ Pair a b ∧ ¬ Pair b a) → Nested u → Nested (a :: u)
  | pair {o c : CSym} {u v : List CSym} : Pair o c → Nested u → Nested v → Nested (o :: (u ++ c :: v))

end Gearley.Spec
