/-
The parsing functions of Model/Parser.lean with the numbers of the machine: every `+ 1` on a `usize` of the
source goes through `Usize.succ`, which may overflow. The comparisons and slices are those of
Model/Parser.lean. (Model/Parser.lean itself counts with natural numbers; C59 relates the two.)
-/
import Verif.Model.Parser

namespace DP

/-- A `usize`: how many values it has and what `x + 1` is (`none` is a panic). Whatever it does on overflow, it
is exact as long as the result is a value. -/
structure Usize where
  size : Nat
  succ : Nat → Option Nat
  exact : ∀ n, n + 1 < size → succ n = some (n + 1)

namespace Usize

/-- a build with overflow checks (`debug`): `x + 1` panics -/
def checked (size : Nat) : Usize where
  size := size
  succ n := if n + 1 < size then some (n + 1) else none
  exact n h := by simp [h]

/-- a build without overflow checks (`release`): `x + 1` wraps around -/
def wrapping (size : Nat) : Usize where
  size := size
  succ n := some ((n + 1) % size)
  exact n h := by simp [Nat.mod_eq_of_lt h]

end Usize

namespace Machine

variable (U : Usize)

/-- src/parser/atom/mod.rs:172-193 `Status::get_char`; `none` is a panic -/
def getChar (st : Status) : Option (Except Status (Status × Char)) :=
  match st.itParsing with
  | [] => some (.error st)
  | ch :: rest =>
    match U.succ st.pos.n with
    | none => none
    | some n =>
      if ch = '\n' then
        match U.succ st.pos.row with
        | none => none
        | some row =>
          some (.ok ({ st with itParsing := rest, pos := { n := n, col := 0, row := row, startLine := n } }, ch))
      else if ch = '\r' then
        some (.ok ({ st with itParsing := rest, pos := { st.pos with n := n, col := 0 } }, ch))
      else
        match U.succ st.pos.col with
        | none => none
        | some col =>
          some (.ok ({ st with itParsing := rest, pos := { st.pos with n := n, col := col } }, ch))

/-- src/parser/atom/mod.rs:162-169 `parse_char` -/
def parseChar (st : Status) (ch : Char) : Option (Except Status Status) :=
  match getChar U st with
  | none => none
  | some (.error st) => some (.error st)
  | some (.ok (st, got)) => some (if ch = got then .ok st else .error st)

/-- src/parser/atom/mod.rs:104-108, the loop of `parse_literal` -/
def parseLiteralLoop (lit : Str) : Status → Str → Out Error Status
  | st, [] => .ok st
  | st, ch :: chs =>
    match parseChar U st ch with
    | none => .panic
    | some (.ok st) => parseLiteralLoop lit st chs
    | some (.error st) => raise st (.literal lit) .normal

/-- src/parser/atom/mod.rs:103-110 `parse_literal` -/
def parseLiteral (st : Status) (lit : Str) : Out Error (Status × Node) :=
  match parseLiteralLoop U lit st lit with
  | .ok st => .ok (st, .val lit)
  | .err e => .err e
  | .panic => .panic
  | .diverge => .diverge

/-- src/parser/atom/mod.rs:116-122 `parse_dot` -/
def parseDot (st : Status) : Out Error (Status × Node) :=
  match getChar U st with
  | none => .panic
  | some (.ok (st, ch)) => .ok (st, .val [ch])
  | some (.error st) => raise st .dot .normal

/-- src/parser/atom/mod.rs:124-153 `parse_match` -/
def parseMatch (st : Status) (chars : Str) (ranges : List (Char × Char)) : Out Error (Status × Node) :=
  match getChar U st with
  | none => .panic
  | some (.ok (st, ch)) =>
    if matchChar chars ranges ch then .ok (st, .val [ch])
    else raise st (.mtch chars ranges) .normal
  | some (.error st) => raise st (.mtch chars ranges) .normal

/-- src/parser/atom/mod.rs:155-160 `parse_eof` -/
def parseEof (st : Status) : Out Error (Status × Node) :=
  match getChar U st with
  | none => .panic
  | some (.ok (st, _)) => raise st .eof .normal
  | some (.error st) => .ok (st, .val c!"EOF")

/-- src/parser/atom/mod.rs:60-68 `atom::parse` -/
def parseAtom (st : Status) : Atom → Out Error (Status × Node)
  | .literal s => parseLiteral U st s
  | .error s => parseError st s
  | .mtch cs rs => parseMatch U st cs rs
  | .dot => parseDot U st
  | .eof => parseEof U st

/-- src/parser/expression/mod.rs:209-212 `parse_atom_as_expr` -/
def parseAtomAsExpr (st : Status) (a : Atom) : Out Error (Status × List Node) :=
  match parseAtom U st a with
  | .ok (st, node) => .ok (st, [node])
  | .err e => .err e
  | .panic => .panic
  | .diverge => .diverge

/-- src/parser/expression/mod.rs:298-301, closure `touch_max_bound`; `none` is a panic -/
def touchMaxBound (max : Option Nat) (counter : Nat) : Option Bool :=
  match max with
  | some m =>
    match U.succ counter with
    | none => none
    | some c => some (c == m)
  | none => some false

mutual

/-- src/parser/expression/mod.rs:179-207 `parse_rule_name` -/
def parseRuleName (R : SetOfRules) : Nat → Status → Str → Out Error (Status × Node)
  | 0, _, _ => .diverge
  | f + 1, st, name =>
    let st := if st.traceRules then st.pushRule (c!"r:" ++ name) else st
    match R.get name with
    | none => raise st (.missingRule name) .critical
    | some expression =>
      match parseExpr R f st expression with
      | .ok (st, nodes) => .ok (st, .rule name nodes)
      | .err e => .err e
      | .panic => .panic
      | .diverge => .diverge

/-- src/parser/expression/mod.rs:219-228 `parse_expr` -/
def parseExpr (R : SetOfRules) : Nat → Status → Expr → Out Error (Status × List Node)
  | 0, _, _ => .diverge
  | _ + 1, st, .simple a => parseAtomAsExpr U st a
  | f + 1, st, .and es => parseAnd R f st es []
  | f + 1, st, .or es => parseOr R f st es none
  | f + 1, st, .not e =>
    match parseExpr R f st e with
    | .ok _ => raise st .not .normal
    | .err _ => .ok (st, [])
    | .panic => .panic
    | .diverge => .diverge
  | f + 1, st, .rep e min max => parseRepeat R f e min max st 0 []
  | f + 1, st, .ruleName name =>
    match parseRuleName R f st name with
    | .ok (st, node) => .ok (st, [node])
    | .err e => .err e
    | .panic => .panic
    | .diverge => .diverge

/-- src/parser/expression/mod.rs:231-247 `parse_and` -/
def parseAnd (R : SetOfRules) : Nat → Status → List Expr → List Node → Out Error (Status × List Node)
  | 0, _, _, _ => .diverge
  | _ + 1, st, [], acc => .ok (st, acc)
  | f + 1, st, e :: es, acc =>
    match parseExpr R f st e with
    | .ok (st, vnodes) => parseAnd R f st es (acc ++ vnodes)
    | .err e => .err e
    | .panic => .panic
    | .diverge => .diverge

/-- src/parser/expression/mod.rs:250-285 `parse_or` -/
def parseOr (R : SetOfRules) : Nat → Status → List Expr → Option Error → Out Error (Status × List Node)
  | 0, _, _, _ => .diverge
  | _ + 1, st, [], acc =>
    match acc with
    | some err => .err err
    | none => raise st .orLogic .normal
  | f + 1, st, e :: es, acc =>
    match parseExpr R f st e with
    | .ok result => .ok result
    | .err e =>
      if e.priority = .critical then .err e
      else parseOr R f st es (deepErr acc e)
    | .panic => .panic
    | .diverge => .diverge

/-- src/parser/expression/mod.rs:296-327 `parse_repeat`. `touch_max_bound(acc.1)` is evaluated (and may
overflow) whatever `try_parse` is (line 306). -/
def parseRepeat (R : SetOfRules) :
    Nat → Expr → Nat → Option Nat → Status → Nat → List Node → Out Error (Status × List Node)
  | 0, _, _, _, _, _, _ => .diverge
  | f + 1, e, min, max, st, counter, acc =>
    match parseExpr R f st e with
    | .panic => .panic
    | .diverge => .diverge
    | .err err =>
      match touchMaxBound U max counter with
      | none => .panic
      | some _ =>
        if bigMinBound min counter then
          if err.priority = .critical then .err err
          else .ok (st.setPotentialError err, acc)
        else .err err
    | .ok (st', vnodes) =>
      match touchMaxBound U max counter with
      | none => .panic
      | some true => .ok (st', acc ++ vnodes)
      | some false =>
        match U.succ counter with
        | none => .panic
        | some counter => parseRepeat R f e min max st' counter (acc ++ vnodes)

end

/-- src/lib.rs:503-521 `parse_with_debug` -/
def parseWithDebugF (fuel : Nat) (s : Str) (R : SetOfRules) (debug : Bool) : Out Error Node :=
  match (if debug then parseRuleName U R fuel (.initDebug s debug) c!"main"
    else parseRuleName U R fuel (.init s) c!"main") with
  | .ok (st, ast) =>
    if st.pos.n = byteLen s then .ok ast
    else match st.potentialError with
      | some e => .err e
      | none => raise st .notConsumed .normal
  | .err e => .err e
  | .panic => .panic
  | .diverge => .diverge

/-- src/lib.rs:486-488 `dynparser::parse`, with the numbers of the machine -/
noncomputable def parse (s : Str) (R : SetOfRules) : Out Error Node :=
  limit fun fuel => parseWithDebugF U fuel s R false

/-- src/lib.rs:496-501 `dynparser::parse_debug`, with the numbers of the machine -/
noncomputable def parseDebug (s : Str) (R : SetOfRules) : Out Error Node :=
  limit fun fuel => parseWithDebugF U fuel s R true

end Machine
end DP
