/-
The parsing functions of Model/Parser.lean with a meter: how many calls of `parse_expr` a run makes, and how
many of them are in progress at the same time. (The `tail_call` loops of the `idata` crate are loops: their
iterations are not nested.)
-/
import Verif.Model.Parser

namespace DP

/-- what is measured -/
structure Meter where
  /-- number of calls of `parse_expr` -/
  calls : Nat
  /-- greatest number of calls of `parse_expr` in progress at the same time -/
  depth : Nat
deriving Repr, DecidableEq

namespace Meter

def zero : Meter := ⟨0, 0⟩

/-- inside of a call -/
def enter (m : Meter) : Meter := ⟨m.calls + 1, m.depth + 1⟩

/-- one after the other -/
def andThen (m m' : Meter) : Meter := ⟨m.calls + m'.calls, max m.depth m'.depth⟩

end Meter

mutual

/-- src/parser/expression/mod.rs:179-207 `parse_rule_name` -/
def meterRuleName (R : SetOfRules) : Nat → Status → Str → Out Error (Status × Node) × Meter
  | 0, _, _ => (.diverge, .zero)
  | f + 1, st, name =>
    let st := if st.traceRules then st.pushRule (c!"r:" ++ name) else st
    match R.get name with
    | none => (raise st (.missingRule name) .critical, .zero)
    | some expression =>
      match meterExpr R f st expression with
      | (.ok (st, nodes), m) => (.ok (st, .rule name nodes), m)
      | (.err e, m) => (.err e, m)
      | (.panic, m) => (.panic, m)
      | (.diverge, m) => (.diverge, m)

/-- src/parser/expression/mod.rs:219-228 `parse_expr` -/
def meterExpr (R : SetOfRules) : Nat → Status → Expr → Out Error (Status × List Node) × Meter
  | 0, _, _ => (.diverge, .zero)
  | _ + 1, st, .simple a => (parseAtomAsExpr st a, Meter.zero.enter)
  | f + 1, st, .and es =>
    match meterAnd R f st es [] with
    | (x, m) => (x, m.enter)
  | f + 1, st, .or es =>
    match meterOr R f st es none with
    | (x, m) => (x, m.enter)
  | f + 1, st, .not e =>
    match meterExpr R f st e with
    | (.ok _, m) => (raise st .not .normal, m.enter)
    | (.err _, m) => (.ok (st, []), m.enter)
    | (.panic, m) => (.panic, m.enter)
    | (.diverge, m) => (.diverge, m.enter)
  | f + 1, st, .rep e min max =>
    match meterRepeat R f e min max st 0 [] with
    | (x, m) => (x, m.enter)
  | f + 1, st, .ruleName name =>
    match meterRuleName R f st name with
    | (.ok (st, node), m) => (.ok (st, [node]), m.enter)
    | (.err e, m) => (.err e, m.enter)
    | (.panic, m) => (.panic, m.enter)
    | (.diverge, m) => (.diverge, m.enter)

/-- src/parser/expression/mod.rs:231-247 `parse_and` -/
def meterAnd (R : SetOfRules) : Nat → Status → List Expr → List Node → Out Error (Status × List Node) × Meter
  | 0, _, _, _ => (.diverge, .zero)
  | _ + 1, st, [], acc => (.ok (st, acc), .zero)
  | f + 1, st, e :: es, acc =>
    match meterExpr R f st e with
    | (.ok (st, vnodes), m) =>
      match meterAnd R f st es (acc ++ vnodes) with
      | (x, m') => (x, m.andThen m')
    | (.err e, m) => (.err e, m)
    | (.panic, m) => (.panic, m)
    | (.diverge, m) => (.diverge, m)

/-- src/parser/expression/mod.rs:250-285 `parse_or` -/
def meterOr (R : SetOfRules) : Nat → Status → List Expr → Option Error → Out Error (Status × List Node) × Meter
  | 0, _, _, _ => (.diverge, .zero)
  | _ + 1, st, [], acc =>
    match acc with
    | some err => (.err err, .zero)
    | none => (raise st .orLogic .normal, .zero)
  | f + 1, st, e :: es, acc =>
    match meterExpr R f st e with
    | (.ok result, m) => (.ok result, m)
    | (.err e, m) =>
      if e.priority = .critical then (.err e, m)
      else
        match meterOr R f st es (deepErr acc e) with
        | (x, m') => (x, m.andThen m')
    | (.panic, m) => (.panic, m)
    | (.diverge, m) => (.diverge, m)

/-- src/parser/expression/mod.rs:296-327 `parse_repeat` -/
def meterRepeat (R : SetOfRules) :
    Nat → Expr → Nat → Option Nat → Status → Nat → List Node → Out Error (Status × List Node) × Meter
  | 0, _, _, _, _, _, _ => (.diverge, .zero)
  | f + 1, e, min, max, st, counter, acc =>
    match meterExpr R f st e with
    | (.err err, m) =>
      if bigMinBound min counter then
        if err.priority = .critical then (.err err, m)
        else (.ok (st.setPotentialError err, acc), m)
      else (.err err, m)
    | (.ok (st', vnodes), m) =>
      if touchMaxBound max counter then (.ok (st', acc ++ vnodes), m)
      else
        match meterRepeat R f e min max st' (counter + 1) (acc ++ vnodes) with
        | (x, m') => (x, m.andThen m')
    | (.panic, m) => (.panic, m)
    | (.diverge, m) => (.diverge, m)

end

/-- what `parse` (src/lib.rs:486-488) has used with this fuel -/
def used (fuel : Nat) (s : Str) (R : SetOfRules) : Meter := (meterRuleName R fuel (.init s) c!"main").2

/-- `parse` returns after having used `m` in all. -/
def Uses (s : Str) (R : SetOfRules) (m : Meter) : Prop :=
  ∃ fuel, parseMain R fuel (.init s) ≠ .diverge ∧ used fuel s R = m

end DP
