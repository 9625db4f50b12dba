/-
Independent specification: how many calls of the code generator an expression needs to have in progress (C97).
-/
import Verif.Model.Parser

namespace DP.Spec

mutual
/-- sequences, choices and repetitions count two, negations one, and classes their ranges -/
def codeDepth : Expr → Nat
  | .simple (.mtch _ rs) => rs.length + 4
  | .simple _ => 2
  | .and es => codeDepths es + 2
  | .or es => codeDepths es + 2
  | .not e => codeDepth e + 1
  | .rep e _ _ => codeDepth e + 2
  | .ruleName _ => 1
/-- the deepest -/
def codeDepths : List Expr → Nat
  | [] => 0
  | e :: es => max (codeDepth e) (codeDepths es)
end

/-- the deepest rule, and one more (nothing for no rules) -/
def rulesCodeDepth : List (Str × Expr) → Nat
  | [] => 0
  | ne :: l => max (codeDepth ne.2 + 1) (rulesCodeDepth l)

end DP.Spec
