import Verif.Model.Recognizer
import Verif.Spec.Grammar

/-!
# The specification forest

A forest whose node handles *are* the lists of trees they represent. It never panics. Running the recognizer with it
shows which trees a run represents; other forests are compared with it.
-/

namespace Gearley
open Gearley.Spec

/-- All pairs of a left and a right tree. -/
def pairs (l r : List PTree) : List PTree := l.flatMap fun a => r.map fun b => .pair a b

/-- State: the trees of the summands pushed so far. -/
def treeForest : ForestOps (List PTree) (List PTree) where
  beginSum _ := pure []
  pushSummand s it := pure (s ++ it.node.map (.node it.dot))
  sum s _ _ := pure (s, s)
  product s l r := pure (s, pairs l r)
  leaf s sym _ value := pure (s, [.leaf sym value])
  nulling _ sym := pure [.nulling sym]

/-- The recognizer with the specification forest. -/
def treeEnv (g : DefaultGrammar) (la : Bool) (sorter : Sorter) : Env (List PTree) (List PTree) :=
  { g := g, F := treeForest, lookahead := la, leo := false, sorter := sorter }

end Gearley
