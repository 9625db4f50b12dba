/-
The parsing functions of Model/Parser.lean, counting the characters of the text that a run copies. Every error
holds copies of the parts of its line (src/parser/mod.rs:66-82, built in 162-176), whether it is returned or given up
for another alternative, and every copy of a status (`Status::clone`, derived in src/parser/mod.rs:85) copies the error it
remembers. (Not counted: descriptions, rule names and values, which are made from the rules or a character.)
-/
import Verif.Model.Parser

namespace DP

/-- the characters of the text in an error: `line_before` and `line_after` -/
def Error.copied (e : Error) : Nat := e.lineBefore.length + e.lineAfter.length

/-- the characters of the text in a status: those of its `potential_error` -/
def Status.copied (st : Status) : Nat :=
  match st.potentialError with
  | some e => e.copied
  | none => 0

/-- the characters copied to build the error of this outcome -/
def built {α : Type} : Out Error α → Nat
  | .err e => e.copied
  | _ => 0

mutual

/-- src/parser/expression/mod.rs:179-207 `parse_rule_name` -/
def copiesRuleName (R : SetOfRules) : Nat → Status → Str → Out Error (Status × Node) × Nat
  | 0, _, _ => (.diverge, 0)
  | f + 1, st, name =>
    let st := if st.traceRules then st.pushRule (c!"r:" ++ name) else st
    match R.get name with
    | none =>
      let x := raise st (.missingRule name) .critical
      (x, built x)
    | some expression =>
      match copiesExpr R f st expression with
      | (.ok (st, nodes), c) => (.ok (st, .rule name nodes), c)
      | (.err e, c) => (.err e, c)
      | (.panic, c) => (.panic, c)
      | (.diverge, c) => (.diverge, c)

/-- src/parser/expression/mod.rs:219-228 `parse_expr`; `parse_or` (260) and `parse_not` (289) copy the status -/
def copiesExpr (R : SetOfRules) : Nat → Status → Expr → Out Error (Status × List Node) × Nat
  | 0, _, _ => (.diverge, 0)
  | _ + 1, st, .simple a =>
    let x := parseAtomAsExpr st a
    (x, built x)
  | f + 1, st, .and es => copiesAnd R f st es []
  | f + 1, st, .or es =>
    match copiesOr R f st es none with
    | (x, c) => (x, st.copied + c)
  | f + 1, st, .not e =>
    match copiesExpr R f st e with
    | (.ok _, c) =>
      let x := raise st .not .normal
      (x, st.copied + c + built x)
    | (.err _, c) => (.ok (st, []), st.copied + c)
    | (.panic, c) => (.panic, st.copied + c)
    | (.diverge, c) => (.diverge, st.copied + c)
  | f + 1, st, .rep e min max => copiesRepeat R f e min max st 0 []
  | f + 1, st, .ruleName name =>
    match copiesRuleName R f st name with
    | (.ok (st, node), c) => (.ok (st, [node]), c)
    | (.err e, c) => (.err e, c)
    | (.panic, c) => (.panic, c)
    | (.diverge, c) => (.diverge, c)

/-- src/parser/expression/mod.rs:231-247 `parse_and` -/
def copiesAnd (R : SetOfRules) : Nat → Status → List Expr → List Node → Out Error (Status × List Node) × Nat
  | 0, _, _, _ => (.diverge, 0)
  | _ + 1, st, [], acc => (.ok (st, acc), 0)
  | f + 1, st, e :: es, acc =>
    match copiesExpr R f st e with
    | (.ok (st, vnodes), c) =>
      match copiesAnd R f st es (acc ++ vnodes) with
      | (x, c') => (x, c + c')
    | (.err e, c) => (.err e, c)
    | (.panic, c) => (.panic, c)
    | (.diverge, c) => (.diverge, c)

/-- src/parser/expression/mod.rs:250-285 `parse_or`; each alternative gets a copy of the status (272) -/
def copiesOr (R : SetOfRules) : Nat → Status → List Expr → Option Error → Out Error (Status × List Node) × Nat
  | 0, _, _, _ => (.diverge, 0)
  | _ + 1, st, [], acc =>
    match acc with
    | some err => (.err err, 0)
    | none =>
      let x := raise st .orLogic .normal
      (x, built x)
  | f + 1, st, e :: es, acc =>
    match copiesExpr R f st e with
    | (.ok result, c) => (.ok result, st.copied + c)
    | (.err e, c) =>
      if e.priority = .critical then (.err e, st.copied + c)
      else
        match copiesOr R f st es (deepErr acc e) with
        | (x, c') => (x, st.copied + c + c')
    | (.panic, c) => (.panic, st.copied + c)
    | (.diverge, c) => (.diverge, st.copied + c)

/-- src/parser/expression/mod.rs:296-327 `parse_repeat`; each round gets a copy of the status (305) -/
def copiesRepeat (R : SetOfRules) :
    Nat → Expr → Nat → Option Nat → Status → Nat → List Node → Out Error (Status × List Node) × Nat
  | 0, _, _, _, _, _, _ => (.diverge, 0)
  | f + 1, e, min, max, st, counter, acc =>
    match copiesExpr R f st e with
    | (.err err, c) =>
      if bigMinBound min counter then
        if err.priority = .critical then (.err err, st.copied + c)
        else (.ok (st.setPotentialError err, acc), st.copied + c)
      else (.err err, st.copied + c)
    | (.ok (st', vnodes), c) =>
      if touchMaxBound max counter then (.ok (st', acc ++ vnodes), st.copied + c)
      else
        match copiesRepeat R f e min max st' (counter + 1) (acc ++ vnodes) with
        | (x, c') => (x, st.copied + c + c')
    | (.panic, c) => (.panic, st.copied + c)
    | (.diverge, c) => (.diverge, st.copied + c)

end

/-- what `parse` (src/lib.rs:486-488, 503-521) has copied with this fuel -/
def copiedF (fuel : Nat) (s : Str) (R : SetOfRules) : Nat :=
  match copiesRuleName R fuel (.init s) c!"main" with
  | (.ok (st, _), c) =>
    if st.pos.n = byteLen s then c + st.copied
    else match st.potentialError with
      | some _ => c + st.copied
      | none => c + built (raise st .notConsumed .normal : Out Error Node)
  | (_, c) => c

/-- `parse` returns after having copied `c` characters of the text in all. -/
def Copied (s : Str) (R : SetOfRules) (c : Nat) : Prop :=
  ∃ fuel, parseMain R fuel (.init s) ≠ .diverge ∧ copiedF fuel s R = c

end DP
