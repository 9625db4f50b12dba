/-
Independent specification: expressions with binary operators of any number of levels of precedence (C98), as they are written
and as they are read.
-/
import Verif.Spec.Peg

namespace DP.Spec

/-- an expression: a word, or an operator between two expressions -/
inductive Bin
  | word (w : Str)
  | op (o : Char) (l r : Bin)

/-- Expressions as texts, with parentheses only where they are needed: operators further back in the list bind tighter, and operators
associate to the left. `k` says that operators before the `k`-th need parentheses. -/
def binText (ops : List Char) (k : Nat) : Bin → Str
  | .word w => w
  | .op o l r =>
    let s := binText ops (ops.idxOf o) l ++ [o] ++ binText ops (ops.idxOf o + 1) r
    if k ≤ ops.idxOf o then s else '(' :: s ++ [')']

/-- its operators are in the list, and its words are made of the given characters -/
def Bin.OK (L : Char → Prop) (ops : List Char) : Bin → Prop
  | .word w => w ≠ [] ∧ ∀ c ∈ w, L c
  | .op o l r => o ∈ ops ∧ l.OK L ops ∧ r.OK L ops

/-- the characters of some leaves -/
def leafText : List Node → Str
  | .val v :: ns => v ++ leafText ns
  | _ => []

mutual
/-- the expression that a tree stands for: operators between the children of a rule, from the left; what is between parentheses; the
characters -/
def readBin : Node → Bin
  | .rule _ [.val _, .rule m ms, .val _] => readBin (.rule m ms)
  | .rule _ (.rule m ms :: ns) => readOps (readBin (.rule m ms)) ns
  | .rule _ ns => .word (leafText ns)
  | _ => .word []
def readOps (acc : Bin) : List Node → Bin
  | .val (o :: _) :: n :: ns => readOps (.op o acc (readBin n)) ns
  | _ => acc
end

/-- the rule after the first -/
def nextName (a : Str) : List (Str × Char) → Str
  | [] => a
  | (n, _) :: _ => n

/-- one rule for each operator, `n = m ('o' m)*` with the next rule `m` -/
def levelEntries (a : Str) : List (Str × Char) → List (Str × Expr)
  | [] => []
  | (n, o) :: ls =>
    (n, .and [.ruleName (nextName a ls), .rep (.and [.simple (.literal [o]), .ruleName (nextName a ls)]) 0 none]) :: levelEntries a ls

/-- the rules of the levels, and `a = [..]+ / '(' main ')'` for the words and the parentheses -/
def levelRules (cs : Str) (rs : List (Char × Char)) (a : Str) (ls : List (Str × Char)) : SetOfRules :=
  ⟨levelEntries a ls ++
    [(a, .or [.rep (.simple (.mtch cs rs)) 1 none, .and [.simple (.literal ['(']), .ruleName c!"main", .simple (.literal [')'])]])]⟩

end DP.Spec
