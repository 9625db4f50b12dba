/-
Independent specification: comments inside of comments (C101).
-/
import Verif.Spec.Peg

namespace DP.Spec

/-- what is inside of a comment: characters and comments -/
inductive Inside
  | nil
  | chr (x : Char) (rest : Inside)
  | nest (b rest : Inside)
deriving Repr, DecidableEq

/-- the text, with `o` and `c` around each comment -/
def Inside.str (o c : Char) : Inside → Str
  | .nil => []
  | .chr x r => x :: r.str o c
  | .nest b r => o :: (b.str o c ++ c :: r.str o c)

/-- the nodes: one for each character, and a node `main` for each comment -/
def Inside.nodes (o c : Char) : Inside → List Node
  | .nil => []
  | .chr x r => .val [x] :: r.nodes o c
  | .nest b r => .rule c!"main" (.val [o] :: (b.nodes o c ++ [.val [c]])) :: r.nodes o c

/-- the characters are neither `o` nor `c` -/
def Inside.Plain (o c : Char) : Inside → Prop
  | .nil => True
  | .chr x r => x ≠ o ∧ x ≠ c ∧ r.Plain o c
  | .nest b r => b.Plain o c ∧ r.Plain o c

/-- what follows the `c` that closes the `o` before the text, when `d` more are open: found by counting -/
def afterClose (o c : Char) : Nat → Str → Option Str
  | _, [] => none
  | d, x :: r =>
    if x = c then (match d with
      | 0 => some r
      | d + 1 => afterClose o c d r)
    else if x = o then afterClose o c (d + 1) r
    else afterClose o c d r

end DP.Spec
