/-
Independent specification: how deep values are, and the texts that show them (C99).
-/
import Verif.Spec.TreeSize
import Verif.Model.Peg

namespace DP.Spec

mutual
/-- how deep the text of a tree is: `Rule`, the pair and the list count one each, `Val` and its string, too -/
def printDepth : Node → Nat
  | .eof => 1
  | .val _ => 2
  | .rule _ ns => printDepths ns + 3
/-- the deepest -/
def printDepths : List Node → Nat
  | [] => 0
  | n :: ns => max (printDepth n) (printDepths ns)
end

mutual
/-- how many expressions are inside of one another -/
def exprDepth : Expr → Nat
  | .simple _ => 1
  | .ruleName _ => 1
  | .and es => exprDepths es + 1
  | .or es => exprDepths es + 1
  | .not e => exprDepth e + 1
  | .rep e _ _ => exprDepth e + 1
/-- the deepest -/
def exprDepths : List Expr → Nat
  | [] => 0
  | e :: es => max (exprDepth e) (exprDepths es)
end

/-- the deepest rule -/
def rulesDepth (l : List (Str × Expr)) : Nat := exprDepths (l.map Prod.snd)

/-- how many errors are inside of one another -/
def errorDepth : PegError → Nat
  | .peg _ none => 1
  | .peg _ (some e) => errorDepth e + 1
  | .parser _ => 1
  | .ast _ => 1

end DP.Spec
