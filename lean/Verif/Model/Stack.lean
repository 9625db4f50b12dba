/-
The parsing functions of Model/Parser.lean on a call stack of limited size. `none` is the stack overflow: the process is aborted, which
the program cannot catch, unlike a panic. How many bytes the frame of a function takes is up to the compiler and is a
parameter. (The `tail_call` loops of the `idata` crate are loops: their iterations do not pile up frames. Not counted: what the leaves of
the recursion call in turn, such as the allocation of strings, other than as part of the frame of `parse_atom_as_expr`.)
-/
import Verif.Model.Parser

namespace DP

/-- bytes of the stack taken by a call, with what lies between it and the next `parse_expr` or `parse_rule_name` -/
structure Frames where
  /-- `parse_rule_name` -/
  rule : Nat
  /-- `parse_expr` -/
  expr : Nat
  /-- `parse_atom_as_expr`, with all that it calls -/
  atom : Nat
  /-- `parse_and`, `tail_call` and the closure -/
  and : Nat
  /-- `parse_or`, `tail_call` and the closure -/
  or : Nat
  /-- `parse_not` -/
  not : Nat
  /-- `parse_repeat`, `tail_call` and the closure -/
  rep : Nat
  /-- `parse_rule_name_as_expr` -/
  ref : Nat

mutual

/-- src/parser/expression/mod.rs:179-207 `parse_rule_name`, with `d` bytes of stack left -/
def stackRuleName (F : Frames) (R : SetOfRules) : Nat → Nat → Status → Str → Option (Out Error (Status × Node))
  | 0, _, _, _ => some .diverge
  | f + 1, d, st, name =>
    if d < F.rule then none
    else
      let st := if st.traceRules then st.pushRule (c!"r:" ++ name) else st
      match R.get name with
      | none => some (raise st (.missingRule name) .critical)
      | some expression =>
        match stackExpr F R f (d - F.rule) st expression with
        | none => none
        | some (.ok (st, nodes)) => some (.ok (st, .rule name nodes))
        | some (.err e) => some (.err e)
        | some .panic => some .panic
        | some .diverge => some .diverge

/-- src/parser/expression/mod.rs:219-228 `parse_expr` -/
def stackExpr (F : Frames) (R : SetOfRules) : Nat → Nat → Status → Expr → Option (Out Error (Status × List Node))
  | 0, _, _, _ => some .diverge
  | f + 1, d, st, e =>
    if d < F.expr then none
    else match e with
      | .simple a => if d - F.expr < F.atom then none else some (parseAtomAsExpr st a)
      | .and es => if d - F.expr < F.and then none else stackAnd F R f (d - F.expr - F.and) st es []
      | .or es => if d - F.expr < F.or then none else stackOr F R f (d - F.expr - F.or) st es none
      | .not e =>
        if d - F.expr < F.not then none
        else match stackExpr F R f (d - F.expr - F.not) st e with
          | none => none
          | some (.ok _) => some (raise st .not .normal)
          | some (.err _) => some (.ok (st, []))
          | some .panic => some .panic
          | some .diverge => some .diverge
      | .rep e min max => if d - F.expr < F.rep then none else stackRepeat F R f (d - F.expr - F.rep) e min max st 0 []
      | .ruleName name =>
        if d - F.expr < F.ref then none
        else match stackRuleName F R f (d - F.expr - F.ref) st name with
          | none => none
          | some (.ok (st, node)) => some (.ok (st, [node]))
          | some (.err e) => some (.err e)
          | some .panic => some .panic
          | some .diverge => some .diverge

/-- src/parser/expression/mod.rs:231-247 `parse_and` -/
def stackAnd (F : Frames) (R : SetOfRules) : Nat → Nat → Status → List Expr → List Node → Option (Out Error (Status × List Node))
  | 0, _, _, _, _ => some .diverge
  | _ + 1, _, st, [], acc => some (.ok (st, acc))
  | f + 1, d, st, e :: es, acc =>
    match stackExpr F R f d st e with
    | none => none
    | some (.ok (st, vnodes)) => stackAnd F R f d st es (acc ++ vnodes)
    | some (.err e) => some (.err e)
    | some .panic => some .panic
    | some .diverge => some .diverge

/-- src/parser/expression/mod.rs:250-285 `parse_or` -/
def stackOr (F : Frames) (R : SetOfRules) : Nat → Nat → Status → List Expr → Option Error → Option (Out Error (Status × List Node))
  | 0, _, _, _, _ => some .diverge
  | _ + 1, _, st, [], acc =>
    match acc with
    | some err => some (.err err)
    | none => some (raise st .orLogic .normal)
  | f + 1, d, st, e :: es, acc =>
    match stackExpr F R f d st e with
    | none => none
    | some (.ok result) => some (.ok result)
    | some (.err e) =>
      if e.priority = .critical then some (.err e)
      else stackOr F R f d st es (deepErr acc e)
    | some .panic => some .panic
    | some .diverge => some .diverge

/-- src/parser/expression/mod.rs:296-327 `parse_repeat` -/
def stackRepeat (F : Frames) (R : SetOfRules) :
    Nat → Nat → Expr → Nat → Option Nat → Status → Nat → List Node → Option (Out Error (Status × List Node))
  | 0, _, _, _, _, _, _, _ => some .diverge
  | f + 1, d, e, min, max, st, counter, acc =>
    match stackExpr F R f d st e with
    | none => none
    | some (.err err) =>
      if bigMinBound min counter then
        if err.priority = .critical then some (.err err)
        else some (.ok (st.setPotentialError err, acc))
      else some (.err err)
    | some (.ok (st', vnodes)) =>
      if touchMaxBound max counter then some (.ok (st', acc ++ vnodes))
      else stackRepeat F R f d e min max st' (counter + 1) (acc ++ vnodes)
    | some .panic => some .panic
    | some .diverge => some .diverge

end

/-- src/lib.rs:486-488, 503-521 `parse`, where `d` bytes of stack are left for the call of `parse_rule_name` -/
def parseStackF (F : Frames) (fuel d : Nat) (s : Str) (R : SetOfRules) : Option (Out Error Node) :=
  match stackRuleName F R fuel d (.init s) c!"main" with
  | none => none
  | some (.ok (st, ast)) =>
    if st.pos.n = byteLen s then some (.ok ast)
    else match st.potentialError with
      | some e => some (.err e)
      | none => some (raise st .notConsumed .normal)
  | some (.err e) => some (.err e)
  | some .panic => some .panic
  | some .diverge => some .diverge

open Classical in
/-- `parse` with `d` bytes of stack: `none` if it overflows at some time, else its answer -/
noncomputable def parseStack (F : Frames) (d : Nat) (s : Str) (R : SetOfRules) : Option (Out Error Node) :=
  if ∃ fuel, parseStackF F fuel d s R = none then none
  else some (limit fun fuel => (parseStackF F fuel d s R).getD .diverge)

end DP
