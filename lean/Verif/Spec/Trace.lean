/-
Independent specification: how far a match has got, and the rules entered until then.
-/
import Verif.Spec.Tree

namespace DP.Spec

mutual
/-- the names of the rules of a tree, each before those inside it -/
def ruleNames : Node → List Str
  | .val _ => []
  | .eof => []
  | .rule n ns => n :: ruleNamesL ns
def ruleNamesL : List Node → List Str
  | [] => []
  | n :: ns => ruleNames n ++ ruleNamesL ns
end

/-- A rule that has been entered and not left: its name, and the nodes that it already has. -/
abbrev Frame := Str × List Node

/-- the names of the rules entered and not left, from the outermost to the innermost, each followed by the ones that
it has called and that are complete -/
def openNames (m : List Frame) : List Str := m.flatMap fun f => f.1 :: ruleNamesL f.2

/-- the text of the nodes of the frames -/
def openText (m : List Frame) : Str := m.flatMap fun f => textL f.2

/-- `Partly G e s ns m q`: a moment of matching `e` against the beginning of `s`. The nodes `ns` are complete, inside the
rules `m` that have been entered since, and what is left is `q`. Alternatives that failed are forgotten, and so is what
happens inside a lookahead. -/
inductive Partly (G : Str → Option Expr) : Expr → Str → List Node → List Frame → Str → Prop
  /-- nothing is done yet -/
  | start (e s) : Partly G e s [] [] s
  /-- everything is done -/
  | done {e s r ns} : Peg G e s (.ok r ns) → Partly G e s ns [] r
  | and_head {e es s ns m q} : Partly G e s ns m q → Partly G (.and (e :: es)) s ns m q
  | and_tail {e es s r ns ns' m q} : Peg G e s (.ok r ns) → Partly G (.and es) r ns' m q →
      Partly G (.and (e :: es)) s (ns ++ ns') m q
  | or_head {e es s ns m q} : Partly G e s ns m q → Partly G (.or (e :: es)) s ns m q
  | or_tail {e es s ns m q} : Peg G e s .fail → Partly G (.or es) s ns m q → Partly G (.or (e :: es)) s ns m q
  | rep_head {e mn mx s ns m q} : mx ≠ some 0 → Partly G e s ns m q → Partly G (.rep e mn mx) s ns m q
  | rep_tail {e mn mx s r ns ns' m q} : mx ≠ some 0 → Peg G e s (.ok r ns) →
      Partly G (.rep e (mn - 1) (mx.map (· - 1))) r ns' m q → Partly G (.rep e mn mx) s (ns ++ ns') m q
  /-- the rule is looked up -/
  | enter (n s) : Partly G (.ruleName n) s [] [(n, [])] s
  | body {n e s ns m q} : G n = some e → Partly G e s ns m q → Partly G (.ruleName n) s [] ((n, ns) :: m) q

/-- how many characters a terminal may have read before it is found not to match -/
def readAhead : Descr → Nat
  | .literal l => l.length
  | .mtch _ _ => 1
  | .eof => 1
  | _ => 0

end DP.Spec
