/-
Independent specification: how deep an AST is if its rules are counted with weights.
-/
import Verif.Spec.TreeSize

namespace DP.Spec

mutual
/-- the longest way from the root to a leaf, where a rule counts `w` of its name and a value, or the end of the text, one -/
def reach (w : Str → Nat) : Node → Nat
  | .val _ => 1
  | .eof => 1
  | .rule n ns => w n + reaches w ns
def reaches (w : Str → Nat) : List Node → Nat
  | [] => 0
  | n :: ns => max (reach w n) (reaches w ns)
end

/-- two for a name that is kept, one for others -/
def keptTwice (keep : List Str) (n : Str) : Nat := if n ∈ keep then 2 else 1

/-- the same, but the root is always kept -/
def keptReach (keep : List Str) : Node → Nat
  | .rule _ ns => 2 + reaches (keptTwice keep) ns
  | _ => 1

end DP.Spec
