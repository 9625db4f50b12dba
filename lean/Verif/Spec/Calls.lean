/-
Independent specification: the expressions that occur in rules (C102).
-/
import Verif.Spec.Peg

namespace DP.Spec

mutual
/-- the expression and those inside of it -/
def subexprs : Expr → List Expr
  | .simple a => [.simple a]
  | .and es => .and es :: subexprsAll es
  | .or es => .or es :: subexprsAll es
  | .not e => .not e :: subexprs e
  | .rep e min max => .rep e min max :: subexprs e
  | .ruleName n => [.ruleName n]
def subexprsAll : List Expr → List Expr
  | [] => []
  | e :: es => subexprs e ++ subexprsAll es
end

/-- all expressions that occur in the rules -/
def rulesExprs (R : SetOfRules) : List Expr := R.entries.flatMap fun ne => subexprs ne.2

end DP.Spec
