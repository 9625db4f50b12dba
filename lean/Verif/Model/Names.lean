/-
The parsing functions of Model/Parser.lean, counting the rule names that a run writes into lists. With `trace_rules` the
status lists the rules entered (`walking_rules`, src/parser/mod.rs:101): a name is added for each rule (src/parser/mod.rs:132-135),
every error holds a copy of the list (`parsing_rules`, src/parser/mod.rs:173), and every copy of a status
(`Status::clone`, derived in src/parser/mod.rs:85) copies its list and that of the error it remembers.
-/
import Verif.Model.Parser

namespace DP

/-- the names in an error: `parsing_rules` -/
def Error.names (e : Error) : Nat := e.parsingRules.length

/-- the names in a status: `walking_rules`, and those of its `potential_error` -/
def Status.names (st : Status) : Nat :=
  st.walkingRules.length + match st.potentialError with
  | some e => e.names
  | none => 0

/-- the names copied to build the error of this outcome -/
def namesBuilt {α : Type} : Out Error α → Nat
  | .err e => e.names
  | _ => 0

mutual

/-- src/parser/expression/mod.rs:179-207 `parse_rule_name`; with `trace_rules` the name is added to the list (183-187) -/
def namesRuleName (R : SetOfRules) : Nat → Status → Str → Out Error (Status × Node) × Nat
  | 0, _, _ => (.diverge, 0)
  | f + 1, st, name =>
    let pushed := if st.traceRules then 1 else 0
    let st := if st.traceRules then st.pushRule (c!"r:" ++ name) else st
    match R.get name with
    | none =>
      let x := raise st (.missingRule name) .critical
      (x, pushed + namesBuilt x)
    | some expression =>
      match namesExpr R f st expression with
      | (.ok (st, nodes), c) => (.ok (st, .rule name nodes), pushed + c)
      | (.err e, c) => (.err e, pushed + c)
      | (.panic, c) => (.panic, pushed + c)
      | (.diverge, c) => (.diverge, pushed + c)

/-- src/parser/expression/mod.rs:219-228 `parse_expr`; `parse_or` (260) and `parse_not` (289) copy the status -/
def namesExpr (R : SetOfRules) : Nat → Status → Expr → Out Error (Status × List Node) × Nat
  | 0, _, _ => (.diverge, 0)
  | _ + 1, st, .simple a =>
    let x := parseAtomAsExpr st a
    (x, namesBuilt x)
  | f + 1, st, .and es => namesAnd R f st es []
  | f + 1, st, .or es =>
    match namesOr R f st es none with
    | (x, c) => (x, st.names + c)
  | f + 1, st, .not e =>
    match namesExpr R f st e with
    | (.ok _, c) =>
      let x := raise st .not .normal
      (x, st.names + c + namesBuilt x)
    | (.err _, c) => (.ok (st, []), st.names + c)
    | (.panic, c) => (.panic, st.names + c)
    | (.diverge, c) => (.diverge, st.names + c)
  | f + 1, st, .rep e min max => namesRepeat R f e min max st 0 []
  | f + 1, st, .ruleName name =>
    match namesRuleName R f st name with
    | (.ok (st, node), c) => (.ok (st, [node]), c)
    | (.err e, c) => (.err e, c)
    | (.panic, c) => (.panic, c)
    | (.diverge, c) => (.diverge, c)

/-- src/parser/expression/mod.rs:231-247 `parse_and` -/
def namesAnd (R : SetOfRules) : Nat → Status → List Expr → List Node → Out Error (Status × List Node) × Nat
  | 0, _, _, _ => (.diverge, 0)
  | _ + 1, st, [], acc => (.ok (st, acc), 0)
  | f + 1, st, e :: es, acc =>
    match namesExpr R f st e with
    | (.ok (st, vnodes), c) =>
      match namesAnd R f st es (acc ++ vnodes) with
      | (x, c') => (x, c + c')
    | (.err e, c) => (.err e, c)
    | (.panic, c) => (.panic, c)
    | (.diverge, c) => (.diverge, c)

/-- src/parser/expression/mod.rs:250-285 `parse_or`; each alternative gets a copy of the status (272) -/
def namesOr (R : SetOfRules) : Nat → Status → List Expr → Option Error → Out Error (Status × List Node) × Nat
  | 0, _, _, _ => (.diverge, 0)
  | _ + 1, st, [], acc =>
    match acc with
    | some err => (.err err, 0)
    | none =>
      let x := raise st .orLogic .normal
      (x, namesBuilt x)
  | f + 1, st, e :: es, acc =>
    match namesExpr R f st e with
    | (.ok result, c) => (.ok result, st.names + c)
    | (.err e, c) =>
      if e.priority = .critical then (.err e, st.names + c)
      else
        match namesOr R f st es (deepErr acc e) with
        | (x, c') => (x, st.names + c + c')
    | (.panic, c) => (.panic, st.names + c)
    | (.diverge, c) => (.diverge, st.names + c)

/-- src/parser/expression/mod.rs:296-327 `parse_repeat`; each round gets a copy of the status (305) -/
def namesRepeat (R : SetOfRules) :
    Nat → Expr → Nat → Option Nat → Status → Nat → List Node → Out Error (Status × List Node) × Nat
  | 0, _, _, _, _, _, _ => (.diverge, 0)
  | f + 1, e, min, max, st, counter, acc =>
    match namesExpr R f st e with
    | (.err err, c) =>
      if bigMinBound min counter then
        if err.priority = .critical then (.err err, st.names + c)
        else (.ok (st.setPotentialError err, acc), st.names + c)
      else (.err err, st.names + c)
    | (.ok (st', vnodes), c) =>
      if touchMaxBound max counter then (.ok (st', acc ++ vnodes), st.names + c)
      else
        match namesRepeat R f e min max st' (counter + 1) (acc ++ vnodes) with
        | (x, c') => (x, st.names + c + c')
    | (.panic, c) => (.panic, st.names + c)
    | (.diverge, c) => (.diverge, st.names + c)

end

/-- the status that `parse_with_debug` starts from (src/lib.rs:508-512) -/
def startStatus (s : Str) (debug : Bool) : Status := if debug then .initDebug s debug else .init s

/-- what `parse_with_debug` (src/lib.rs:503-521) has written with this fuel -/
def namesF (fuel : Nat) (s : Str) (R : SetOfRules) (debug : Bool) : Nat :=
  match namesRuleName R fuel (startStatus s debug) c!"main" with
  | (.ok (st, _), c) =>
    c + (match st.potentialError with
      | some e => e.names
      | none => 0) +
    (if st.pos.n = byteLen s then 0
    else match st.potentialError with
      | some _ => 0
      | none => namesBuilt (raise st .notConsumed .normal : Out Error Node))
  | (_, c) => c

/-- `parse` (`debug = false`) or `parse_debug` (`debug = true`) returns after having written `c` names into lists. -/
def WritesNames (s : Str) (R : SetOfRules) (debug : Bool) (c : Nat) : Prop :=
  ∃ fuel, parseMain R fuel (startStatus s debug) ≠ .diverge ∧ namesF fuel s R debug = c

end DP
