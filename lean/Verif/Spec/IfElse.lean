/-
Independent specification: statements with `if` and an optional `else`, as texts and as trees (C100).
-/
import Verif.Spec.Peg

namespace DP.Spec

/-- a statement of one character, `if` without and with `else` -/
inductive Stmt
  | base (c : Char)
  | ifThen (x : Stmt)
  | ifElse (x y : Stmt)
deriving Repr, DecidableEq

/-- the text, with `i` for `if` and `e` for `else`; nothing says where a statement ends -/
def Stmt.str (i e : Char) : Stmt → Str
  | .base c => [c]
  | .ifThen x => i :: x.str i e
  | .ifElse x y => i :: (x.str i e ++ e :: y.str i e)

/-- the tree: a node `main` for each statement -/
def Stmt.node (i e : Char) : Stmt → Node
  | .base c => .rule c!"main" [.val [c]]
  | .ifThen x => .rule c!"main" [.val [i], x.node i e]
  | .ifElse x y => .rule c!"main" [.val [i], x.node i e, .val [e], y.node i e]

/-- does not end with an `if` that lacks an `else` -/
def Stmt.Closed : Stmt → Prop
  | .base _ => True
  | .ifThen _ => False
  | .ifElse _ y => y.Closed

/-- every `else` belongs to the nearest `if`: what is between them lacks none -/
def Stmt.Nearest : Stmt → Prop
  | .base _ => True
  | .ifThen x => x.Nearest
  | .ifElse x y => x.Closed ∧ x.Nearest ∧ y.Nearest

/-- the single characters are of this class -/
def Stmt.Over (cs : Str) (rs : List (Char × Char)) : Stmt → Prop
  | .base c => InClass cs rs c
  | .ifThen x => x.Over cs rs
  | .ifElse x y => x.Over cs rs ∧ y.Over cs rs

end DP.Spec
