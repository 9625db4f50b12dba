/-
Independent specification: how big an expression and a set of rules are (C93). Every operator, atom and reference counts one,
every character of a literal, message, name or class counts one, and the bounds of a repetition count with their values.
-/
import Verif.Model.Parser

namespace DP.Spec

/-- the size of an atom -/
def atomSize : Atom → Nat
  | .literal v => 1 + v.length
  | .error v => 1 + v.length
  | .mtch cs rs => 1 + cs.length + 2 * rs.length
  | .dot => 1
  | .eof => 1

mutual
/-- the size of an expression -/
def exprSize : Expr → Nat
  | .simple a => atomSize a
  | .and es => 1 + exprsSize es
  | .or es => 1 + exprsSize es
  | .not e => 1 + exprSize e
  | .rep e min max => 1 + min + max.getD 0 + exprSize e
  | .ruleName n => 1 + n.length
def exprsSize : List Expr → Nat
  | [] => 0
  | e :: es => exprSize e + exprsSize es
end

/-- the size of a set of rules: their names, their expressions and one for each rule -/
def rulesSize (R : SetOfRules) : Nat := (R.entries.map fun ne => 1 + ne.1.length + exprSize ne.2).sum

end DP.Spec
