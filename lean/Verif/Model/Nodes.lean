/-
What building the nodes costs: the nodes moved from one vector into another (`iappend`, in `parse_and` and `parse_repeat`)
and the characters written into values and names of rules, also for nodes that are given up later. What a call returns is
taken from Model/Parser.lean.
-/
import Verif.Model.Parser

namespace DP

structure NodeWork where
  moved : Nat
  chars : Nat
deriving Repr, DecidableEq

instance : Add NodeWork := ⟨fun a b => ⟨a.moved + b.moved, a.chars + b.chars⟩⟩
instance : Zero NodeWork := ⟨⟨0, 0⟩⟩

/-- the characters of the string of a new node -/
def labelChars : Node → Nat
  | .val v => v.length
  | .rule n _ => n.length
  | .eof => 0

mutual

/-- src/parser/expression/mod.rs:179-207 `parse_rule_name`; the name is copied when the rule has matched (206) -/
def nodesRuleName (R : SetOfRules) : Nat → Status → Str → NodeWork
  | 0, _, _ => 0
  | f + 1, st, name =>
    let st := if st.traceRules then st.pushRule (c!"r:" ++ name) else st
    match R.get name with
    | none => 0
    | some expression =>
      nodesExpr R f st expression + match parseExpr R f st expression with
      | .ok (_, nodes) => ⟨0, labelChars (.rule name nodes)⟩
      | _ => 0

/-- src/parser/expression/mod.rs:219-228 `parse_expr`, with `parse_atom_as_expr` (209-212) -/
def nodesExpr (R : SetOfRules) : Nat → Status → Expr → NodeWork
  | 0, _, _ => 0
  | _ + 1, st, .simple a =>
    match parseAtom st a with
    | .ok (_, node) => ⟨0, labelChars node⟩
    | _ => 0
  | f + 1, st, .and es => nodesAnd R f st es
  | f + 1, st, .or es => nodesOr R f st es
  | f + 1, st, .not e => nodesExpr R f st e
  | f + 1, st, .rep e min max => nodesRepeat R f e min max st 0
  | f + 1, st, .ruleName name => nodesRuleName R f st name

/-- src/parser/expression/mod.rs:231-247 `parse_and` -/
def nodesAnd (R : SetOfRules) : Nat → Status → List Expr → NodeWork
  | 0, _, _ => 0
  | _ + 1, _, [] => 0
  | f + 1, st, e :: es =>
    nodesExpr R f st e + match parseExpr R f st e with
    | .ok (st, vnodes) => ⟨vnodes.length, 0⟩ + nodesAnd R f st es
    | _ => 0

/-- src/parser/expression/mod.rs:250-285 `parse_or` -/
def nodesOr (R : SetOfRules) : Nat → Status → List Expr → NodeWork
  | 0, _, _ => 0
  | _ + 1, _, [] => 0
  | f + 1, st, e :: es =>
    nodesExpr R f st e + match parseExpr R f st e with
    | .err e => if e.priority = .critical then 0 else nodesOr R f st es
    | _ => 0

/-- src/parser/expression/mod.rs:296-327 `parse_repeat` -/
def nodesRepeat (R : SetOfRules) : Nat → Expr → Nat → Option Nat → Status → Nat → NodeWork
  | 0, _, _, _, _, _ => 0
  | f + 1, e, min, max, st, counter =>
    nodesExpr R f st e + match parseExpr R f st e with
    | .ok (st', vnodes) =>
      ⟨vnodes.length, 0⟩ + if touchMaxBound max counter then 0 else nodesRepeat R f e min max st' (counter + 1)
    | _ => 0

end

/-- `parse` (src/lib.rs:486-488) returns after this work. -/
def Builds (s : Str) (R : SetOfRules) (w : NodeWork) : Prop :=
  ∃ fuel, parseMain R fuel (.init s) ≠ .diverge ∧ nodesRuleName R fuel (.init s) c!"main" = w

end DP
