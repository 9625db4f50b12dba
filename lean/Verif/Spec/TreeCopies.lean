/-
Independent specification: the characters that are copied if the values of a node are joined one after the other.
-/
import Verif.Spec.TreeSize

namespace DP.Spec

/-- the values that a list of siblings ends with -/
def lastRun (ns : List Node) : List Node := ns.reverse.takeWhile fun n => match n with | .val _ => true | _ => false

/-- the characters of the values that a list of siblings ends with -/
def lastRunLength (ns : List Node) : Nat := (textL (lastRun ns)).length

mutual
/-- For a node that comes after the siblings `before`: the values directly before it are copied, all of them; and if it is a value
it is joined to them, which copies the result twice. -/
def joinCost (before : List Node) : Node → Nat
  | .val v => if (lastRun before).isEmpty then v.length else lastRunLength before + 2 * (lastRunLength before + v.length)
  | .rule _ ns => lastRunLength before + joinCosts [] ns
  | .eof => lastRunLength before
def joinCosts (before : List Node) : List Node → Nat
  | [] => 0
  | n :: ns => joinCost before n + joinCosts (before ++ [n]) ns
end

end DP.Spec
