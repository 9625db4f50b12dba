/-
The calls of `parse_expr`, one by one: the expression and the status that each is given, in the order of the calls. What a
call returns is taken from Model/Parser.lean.
-/
import Verif.Model.Parser

namespace DP

mutual

/-- src/parser/expression/mod.rs:179-207 `parse_rule_name` -/
def callsRuleName (R : SetOfRules) : Nat → Status → Str → List (Expr × Status)
  | 0, _, _ => []
  | f + 1, st, name =>
    let st := if st.traceRules then st.pushRule (c!"r:" ++ name) else st
    match R.get name with
    | none => []
    | some expression => callsExpr R f st expression

/-- src/parser/expression/mod.rs:219-228 `parse_expr` -/
def callsExpr (R : SetOfRules) : Nat → Status → Expr → List (Expr × Status)
  | 0, _, _ => []
  | _ + 1, st, .simple a => [(.simple a, st)]
  | f + 1, st, .and es => (.and es, st) :: callsAnd R f st es
  | f + 1, st, .or es => (.or es, st) :: callsOr R f st es
  | f + 1, st, .not e => (.not e, st) :: callsExpr R f st e
  | f + 1, st, .rep e min max => (.rep e min max, st) :: callsRepeat R f e min max st 0
  | f + 1, st, .ruleName name => (.ruleName name, st) :: callsRuleName R f st name

/-- src/parser/expression/mod.rs:231-247 `parse_and` -/
def callsAnd (R : SetOfRules) : Nat → Status → List Expr → List (Expr × Status)
  | 0, _, _ => []
  | _ + 1, _, [] => []
  | f + 1, st, e :: es =>
    callsExpr R f st e ++ match parseExpr R f st e with
    | .ok (st, _) => callsAnd R f st es
    | _ => []

/-- src/parser/expression/mod.rs:250-285 `parse_or` -/
def callsOr (R : SetOfRules) : Nat → Status → List Expr → List (Expr × Status)
  | 0, _, _ => []
  | _ + 1, _, [] => []
  | f + 1, st, e :: es =>
    callsExpr R f st e ++ match parseExpr R f st e with
    | .err e => if e.priority = .critical then [] else callsOr R f st es
    | _ => []

/-- src/parser/expression/mod.rs:296-327 `parse_repeat` -/
def callsRepeat (R : SetOfRules) : Nat → Expr → Nat → Option Nat → Status → Nat → List (Expr × Status)
  | 0, _, _, _, _, _ => []
  | f + 1, e, min, max, st, counter =>
    callsExpr R f st e ++ match parseExpr R f st e with
    | .ok (st', _) => if touchMaxBound max counter then [] else callsRepeat R f e min max st' (counter + 1)
    | _ => []

end

/-- `parse` (src/lib.rs:486-488) returns after these calls of `parse_expr`. -/
def CallsOf (s : Str) (R : SetOfRules) (l : List (Expr × Status)) : Prop :=
  ∃ fuel, parseMain R fuel (.init s) ≠ .diverge ∧ callsRuleName R fuel (.init s) c!"main" = l

end DP
