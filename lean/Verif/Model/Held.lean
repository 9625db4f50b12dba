/-
How many nodes there are at the same time while `parse` works: those of the vectors that `parse_and` and `parse_repeat` are
filling, and those a call is returning. A vector that is given up is gone at once. What a call returns is taken from
Model/Parser.lean.
-/
import Verif.Model.Parser

namespace DP

mutual
/-- the nodes of a tree -/
def nodesIn : Node → Nat
  | .val _ => 1
  | .eof => 1
  | .rule _ ns => 1 + nodesInAll ns
def nodesInAll : List Node → Nat
  | [] => 0
  | n :: ns => nodesIn n + nodesInAll ns
end

mutual

/-- src/parser/expression/mod.rs:179-207 `parse_rule_name` -/
def heldRuleName (R : SetOfRules) : Nat → Status → Str → Nat
  | 0, _, _ => 0
  | f + 1, st, name =>
    let st := if st.traceRules then st.pushRule (c!"r:" ++ name) else st
    match R.get name with
    | none => 0
    | some expression =>
      max (heldExpr R f st expression) (match parseExpr R f st expression with
      | .ok (_, nodes) => nodesIn (.rule name nodes)
      | _ => 0)

/-- src/parser/expression/mod.rs:219-228 `parse_expr`, with `parse_atom_as_expr` (209-212) -/
def heldExpr (R : SetOfRules) : Nat → Status → Expr → Nat
  | 0, _, _ => 0
  | _ + 1, st, .simple a =>
    match parseAtom st a with
    | .ok (_, node) => nodesIn node
    | _ => 0
  | f + 1, st, .and es => heldAnd R f st es []
  | f + 1, st, .or es => heldOr R f st es
  | f + 1, st, .not e => heldExpr R f st e
  | f + 1, st, .rep e min max => heldRepeat R f e min max st 0 []
  | f + 1, st, .ruleName name => heldRuleName R f st name

/-- src/parser/expression/mod.rs:231-247 `parse_and`: while a part is parsed, the nodes of the parts before are kept -/
def heldAnd (R : SetOfRules) : Nat → Status → List Expr → List Node → Nat
  | 0, _, _, _ => 0
  | _ + 1, _, [], acc => nodesInAll acc
  | f + 1, st, e :: es, acc =>
    max (nodesInAll acc + heldExpr R f st e) (match parseExpr R f st e with
    | .ok (st, vnodes) => heldAnd R f st es (acc ++ vnodes)
    | _ => 0)

/-- src/parser/expression/mod.rs:250-285 `parse_or` -/
def heldOr (R : SetOfRules) : Nat → Status → List Expr → Nat
  | 0, _, _ => 0
  | _ + 1, _, [] => 0
  | f + 1, st, e :: es =>
    max (heldExpr R f st e) (match parseExpr R f st e with
    | .err e => if e.priority = .critical then 0 else heldOr R f st es
    | _ => 0)

/-- src/parser/expression/mod.rs:296-327 `parse_repeat`: while a round is parsed, the nodes of the rounds before are kept -/
def heldRepeat (R : SetOfRules) : Nat → Expr → Nat → Option Nat → Status → Nat → List Node → Nat
  | 0, _, _, _, _, _, _ => 0
  | f + 1, e, min, mx, st, counter, acc =>
    max (nodesInAll acc + heldExpr R f st e) (match parseExpr R f st e with
    | .ok (st', vnodes) =>
      if touchMaxBound mx counter then nodesInAll (acc ++ vnodes)
      else heldRepeat R f e min mx st' (counter + 1) (acc ++ vnodes)
    | _ => 0)

end

/-- `parse` (src/lib.rs:486-488) returns and never had more than `h` nodes at the same time, but once `h`. -/
def Holds (s : Str) (R : SetOfRules) (h : Nat) : Prop :=
  ∃ fuel, parseMain R fuel (.init s) ≠ .diverge ∧ heldRuleName R fuel (.init s) c!"main" = h

end DP
