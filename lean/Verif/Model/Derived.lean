/-
The derived `==` and `{:?}` of Model/Equal.lean and Model/Debug.lean, `Display` of `peg::Error` and the code that the compiler
inserts to drop a value, if only so many calls of them may be in progress at a time. `none`: one call too many. Counted are
the calls for one node, expression or error inside another (for `{:?}`: for one value inside another); those of the standard library in
between, a fixed number, are not.
-/
import Verif.Model.Debug
import Verif.Model.Equal

namespace DP

mutual
/-- `==` of `ast::Node` (src/ast/mod.rs:36): the name of a rule, then its nodes -/
def eqWithin : Nat → Node → Node → Option Bool
  | 0, _, _ => none
  | _ + 1, .val s, .val s' => some (s == s')
  | d + 1, .rule n ns, .rule n' ns' =>
    if n == n' then
      if ns.length == ns'.length then eqListWithin d ns ns' else some false
    else some false
  | _ + 1, .eof, .eof => some true
  | _ + 1, _, _ => some false
/-- `==` of `Vec<ast::Node>`: if there are as many, from the left to the first difference -/
def eqListWithin : Nat → List Node → List Node → Option Bool
  | d, t :: ts, t' :: ts' =>
    match eqWithin d t t' with
    | some true => eqListWithin d ts ts'
    | some false => some false
    | none => none
  | _, _, _ => some true
end

namespace Debug

mutual
/-- `fmt` of Model/Debug.lean -/
def fmtWithin (sty : Style) : Nat → Layout → Dbg → Option Str
  | 0, _, _ => none
  | _ + 1, _, .str s => some (c!"\"" ++ escStr sty '"' s ++ c!"\"")
  | _ + 1, _, .chr c => some (c!"'" ++ escChar sty '\'' c ++ c!"'")
  | _ + 1, _, .num n => some (Nat.toDigits 10 n)
  | _ + 1, _, .group .list name [] => some (name ++ c!"[]")
  | _ + 1, _, .group .map name [] => some (name ++ c!"{}")
  | _ + 1, _, .group _ name [] => some name
  | d + 1, lay, .group k name (e :: es) =>
    match fmtEntryWithin sty d lay e with
    | some x =>
      match fmtEntriesWithin sty d lay es with
      | some xs => some (name ++ opening lay k ++ x ++ xs ++ closing sty lay k)
      | none => none
    | none => none
def fmtEntriesWithin (sty : Style) : Nat → Layout → List Entry → Option Str
  | _, _, [] => some []
  | d, lay, e :: es =>
    match fmtEntryWithin sty d lay e with
    | some x =>
      match fmtEntriesWithin sty d lay es with
      | some xs => some (separator lay ++ x ++ xs)
      | none => none
    | none => none
def fmtEntryWithin (sty : Style) : Nat → Layout → Entry → Option Str
  | d, lay, .plain x => fmtWithin sty d (lay.map (· + 1)) x
  | d, lay, .field n x =>
    match fmtWithin sty d (lay.map (· + 1)) x with
    | some y => some (n ++ c!": " ++ y)
    | none => none
  | d, lay, .pair k x =>
    match fmtWithin sty d (lay.map (· + 1)) k with
    | some z =>
      match fmtWithin sty d (lay.map (· + 1)) x with
      | some y => some (z ++ c!": " ++ y)
      | none => none
    | none => none
end

/-- src/peg/mod.rs:93-102 `Display for Error`; the calls for the `{:?}` of an inner error count as above -/
def displayWithin (sty : Style) : Nat → PegError → Option Str
  | 0, _ => none
  | _ + 1, .peg s none => some s
  | d + 1, .peg s (some b) =>
    match displayWithin sty d b with
    | some t => some (s ++ c!" > " ++ t)
    | none => none
  | d + 1, .parser p =>
    match fmtWithin sty d none (ofError sty p) with
    | some t => some (c!"Parser(" ++ t ++ c!")")
    | none => none
  | d + 1, .ast a =>
    match fmtWithin sty d none (ofAstError a) with
    | some t => some (c!"AST(" ++ t ++ c!")")
    | none => none

end Debug

mutual
/-- dropping an `ast::Node` (src/ast/mod.rs:36-46) -/
def dropWithin : Nat → Node → Option Unit
  | 0, _ => none
  | _ + 1, .val _ => some ()
  | _ + 1, .eof => some ()
  | d + 1, .rule _ ns => dropListWithin d ns
/-- dropping a `Vec<ast::Node>` -/
def dropListWithin : Nat → List Node → Option Unit
  | _, [] => some ()
  | d, n :: ns =>
    match dropWithin d n with
    | some () => dropListWithin d ns
    | none => none
end

mutual
/-- dropping an `Expression` (src/parser/expression/mod.rs:108-137) -/
def dropExprWithin : Nat → Expr → Option Unit
  | 0, _ => none
  | _ + 1, .simple _ => some ()
  | _ + 1, .ruleName _ => some ()
  | d + 1, .and es => dropExprsWithin d es
  | d + 1, .or es => dropExprsWithin d es
  | d + 1, .not e => dropExprWithin d e
  | d + 1, .rep e _ _ => dropExprWithin d e
/-- dropping a `Vec<Expression>` -/
def dropExprsWithin : Nat → List Expr → Option Unit
  | _, [] => some ()
  | d, e :: es =>
    match dropExprWithin d e with
    | some () => dropExprsWithin d es
    | none => none
end

/-- dropping a `SetOfRules` (src/parser/expression/mod.rs:33-34) -/
def dropRulesWithin : Nat → List (Str × Expr) → Option Unit
  | 0, _ => none
  | d + 1, l => dropExprsWithin d (l.map Prod.snd)

/-- dropping a `peg::Error` (src/peg/mod.rs:58-68) -/
def dropErrorWithin : Nat → PegError → Option Unit
  | 0, _ => none
  | d + 1, .peg _ (some e) => dropErrorWithin d e
  | _ + 1, _ => some ()

end DP
