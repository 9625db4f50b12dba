/-
How far an expression goes on without nesting.
-/
import Verif.Model.Parser

namespace DP.Spec

/-- the characters of a literal that do not occur in the text, so that they are written as escapes there -/
def escaped (s v : Str) : Nat := v.countP fun c => !s.contains c

mutual
/-- the ranges of a class, the dots of a name, the escapes of a literal, and the parts of sequences and choices up to
there, for rules written in the text `s` -/
def spread (s : Str) : Expr → Nat
  | .simple (.literal v) => escaped s v
  | .simple (.error v) => escaped s v
  | .simple (.mtch _ rs) => rs.length
  | .simple _ => 0
  | .ruleName n => n.count '.'
  | .not e => spread s e
  | .rep e _ _ => spread s e
  | .and es => spreads s es
  | .or es => spreads s es
/-- part `i` (from 0) lies `i + 1` further -/
def spreads (s : Str) : List Expr → Nat
  | [] => 0
  | e :: es => max (spread s e) (spreads s es) + 1
end

end DP.Spec
