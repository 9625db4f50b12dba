/-
Independent specification: the characters in trees and in expressions (C103).
-/
import Verif.Spec.TreeSize

namespace DP.Spec

mutual
/-- the characters of all names and values of a tree -/
def treeChars : Node → Nat
  | .val v => v.length
  | .eof => 0
  | .rule n ns => n.length + forestChars ns
def forestChars : List Node → Nat
  | [] => 0
  | n :: ns => treeChars n + forestChars ns
end

/-- the characters of the node that a single match of this expression makes, if it makes one itself -/
def ownChars : Expr → Nat
  | .simple (.literal l) => l.length
  | .simple .eof => 3
  | .simple _ => 1
  | .ruleName n => n.length
  | _ => 0

end DP.Spec
