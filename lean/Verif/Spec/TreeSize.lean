/-
Independent specification: how big an AST is.
-/
import Verif.Spec.Tree

namespace DP.Spec

mutual
/-- the number of nodes of a tree -/
def treeSize : Node → Nat
  | .val _ => 1
  | .eof => 1
  | .rule _ ns => forestSize ns + 1
def forestSize : List Node → Nat
  | [] => 0
  | n :: ns => treeSize n + forestSize ns
end

mutual
/-- the number of nodes on the longest way from the root to a leaf -/
def treeDepth : Node → Nat
  | .val _ => 1
  | .eof => 1
  | .rule _ ns => forestDepth ns + 1
def forestDepth : List Node → Nat
  | [] => 0
  | n :: ns => max (treeDepth n) (forestDepth ns)
end

end DP.Spec
