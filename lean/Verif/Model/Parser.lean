/-
Model of src/parser/mod.rs, src/parser/atom/mod.rs, src/parser/expression/mod.rs and of the
`parse` API of src/lib.rs.
-/
import Verif.Model.Ast

namespace DP

/-! ### Types -/

/-- src/parser/mod.rs:33-42 `Possition` (`usize` fields as `Nat`). -/
structure Pos where
  n : Nat
  row : Nat
  col : Nat
  startLine : Nat
deriving Repr, DecidableEq

/-- src/parser/mod.rs:45-52 `Possition::init` -/
def Pos.init : Pos := ⟨0, 0, 0, 0⟩

/-- src/parser/mod.rs:57-62 `ErrPriority` -/
inductive Prio where
  | normal
  | critical
deriving Repr, DecidableEq

/-- `PartialOrd` derived on `ErrPriority` (src/parser/mod.rs:56): `Normal < Critical`. -/
def Prio.gt : Prio → Prio → Bool
  | .critical, .normal => true
  | _, _ => false

/-- The error descriptions built by the parser, one constructor per `format!`/literal in the source.
(Simplification: the code stores the rendered `String`; rendering is `Descr.render`.) -/
inductive Descr where
  /-- src/parser/atom/mod.rs:106 (`"expected literal: <{}>"`) -/
  | literal (l : Str)
  /-- src/parser/atom/mod.rs:113, the text of an `error` atom -/
  | custom (s : Str)
  /-- src/parser/atom/mod.rs:119 -/
  | dot
  /-- src/parser/atom/mod.rs:150 (`"match. expected {} {:?}"`) -/
  | mtch (chars : Str) (ranges : List (Char × Char))
  /-- src/parser/atom/mod.rs:157 -/
  | eof
  /-- src/parser/expression/mod.rs:193 -/
  | missingRule (name : Str)
  /-- src/parser/expression/mod.rs:268 -/
  | orLogic
  /-- src/parser/expression/mod.rs:290 -/
  | not
  /-- src/lib.rs:518 -/
  | notConsumed
deriving Repr, DecidableEq

/-- The string stored in `Error::descr`; `dbg` stands for the `{:?}` formatter of `Vec<(char,char)>`. -/
def Descr.render (dbg : List (Char × Char) → Str) : Descr → Str
  | .literal l => c!"expected literal: <" ++ l ++ c!">"
  | .custom s => s
  | .dot => c!"dot"
  | .mtch cs rs => c!"match. expected " ++ cs ++ c!" " ++ dbg rs
  | .eof => c!"expected EOF"
  | .missingRule n => c!"Missing rule: " ++ n
  | .orLogic => c!"LOGIC ERROR!!! checked all options in or with ¿NO? errors"
  | .not => c!"not"
  | .notConsumed => c!"not consumed full input"

/-- src/parser/mod.rs:66-82 `Error` -/
structure Error where
  pos : Pos
  descr : Descr
  lineBefore : Str
  lineAfter : Str
  parsingRules : List Str
  priority : Prio
deriving Repr, DecidableEq

/-- src/parser/atom/mod.rs:20-32 `Atom`, with `MatchRules` (38) inlined. -/
inductive Atom where
  | literal (s : Str)
  | mtch (chars : Str) (ranges : List (Char × Char))
  | error (s : Str)
  | dot
  | eof
deriving Repr, DecidableEq

/-- src/parser/expression/mod.rs:109-116 `Expression`, with `MultiExpr` (120), `RepInfo` (131-138) and
`NRep` (154) inlined. -/
inductive Expr where
  | simple (a : Atom)
  | and (es : List Expr)
  | or (es : List Expr)
  | not (e : Expr)
  | rep (e : Expr) (min : Nat) (max : Option Nat)
  | ruleName (name : Str)
deriving Repr

/-- src/parser/expression/mod.rs:34 `SetOfRules(pub HashMap<String, Expression>)`. The hash map is an
association list; its order is not observable through `get`. -/
structure SetOfRules where
  entries : List (Str × Expr)
deriving Repr

namespace SetOfRules

/-- `HashMap::get` -/
def get (R : SetOfRules) (name : Str) : Option Expr := R.entries.lookup name

/-- `HashMap::insert` on the entries: the old value of the key, if any, is replaced. -/
def insertEntry (es : List (Str × Expr)) (kv : Str × Expr) : List (Str × Expr) :=
  kv :: es.filter (fun x => x.1 != kv.1)

/-- `rules!{}` (src/lib.rs:143): the empty set -/
def empty : SetOfRules := ⟨[]⟩

/-- src/parser/expression/mod.rs:70-73 `add` -/
def add (R : SetOfRules) (name : Str) (e : Expr) : SetOfRules := ⟨insertEntry R.entries (name, e)⟩

/-- src/parser/expression/mod.rs:102-104 `merge`:
`rules2merge.0.into_iter().chain(self.0).collect()` -/
def merge (self other : SetOfRules) : SetOfRules :=
  ⟨(other.entries ++ self.entries).foldl insertEntry []⟩

/-- src/lib.rs:138-147 `rules!`: successive `add`s. -/
def ofList (l : List (Str × Expr)) : SetOfRules := l.foldl (fun R kv => R.add kv.1 kv.2) empty

end SetOfRules

/-- src/parser/mod.rs:86-102 `Status`. The immutable `rules` field is passed separately. -/
structure Status where
  text2parse : Str
  /-- `it_parsing: Chars`, the characters not yet read -/
  itParsing : Str
  pos : Pos
  potentialError : Option Error
  traceRules : Bool
  walkingRules : List Str
deriving Repr, DecidableEq

namespace Status

/-- src/parser/mod.rs:117-131 `init_debug` -/
def initDebug (t2p : Str) (trace : Bool) : Status :=
  { text2parse := t2p, itParsing := t2p, pos := .init, traceRules := trace, walkingRules := [],
    potentialError := none }

/-- src/parser/mod.rs:105-115 `init` -/
def init (t2p : Str) : Status :=
  { text2parse := t2p, itParsing := t2p, pos := .init, traceRules := false, walkingRules := [],
    potentialError := none }

/-- src/parser/mod.rs:132-135 `push_rule` -/
def pushRule (st : Status) (s : Str) : Status :=
  { st with walkingRules := st.walkingRules ++ [s] }

/-- src/parser/mod.rs:136-139 `set_potential_error` -/
def setPotentialError (st : Status) (e : Error) : Status := { st with potentialError := some e }

end Status

/-- src/parser/mod.rs:162-176 `Error::from_status`; `none` is the panic of the slice on line 166. -/
def fromStatus (st : Status) (d : Descr) (p : Prio) : Option Error :=
  (slice st.text2parse st.pos.startLine st.pos.n).map fun lb =>
    { pos := st.pos
      descr := d
      lineBefore := lb
      lineAfter := st.itParsing.takeWhile (fun ch => ch != '\n' && ch != '\r')
      parsingRules := st.walkingRules
      priority := p }

/-- `Err(Error::from_status(..))` as an outcome. -/
def raise {α : Type} (st : Status) (d : Descr) (p : Prio) : Out Error α :=
  match fromStatus st d p with
  | some e => .err e
  | none => .panic

/-! ### Atoms (src/parser/atom/mod.rs) -/

/-- src/parser/atom/mod.rs:172-193 `Status::get_char`; `.error` carries the status back. -/
def getChar (st : Status) : Except Status (Status × Char) :=
  match st.itParsing with
  | [] => .error st
  | ch :: rest =>
    let n := st.pos.n + 1
    let pos :=
      if ch = '\n' then
        { n := n, col := 0, row := st.pos.row + 1, startLine := n : Pos }
      else if ch = '\r' then
        { st.pos with n := n, col := 0 }
      else
        { st.pos with n := n, col := st.pos.col + 1 }
    .ok ({ st with itParsing := rest, pos := pos }, ch)

/-- src/parser/atom/mod.rs:162-169 `parse_char` -/
def parseChar (st : Status) (ch : Char) : Except Status Status :=
  match getChar st with
  | .error st => .error st
  | .ok (st, got) => if ch = got then .ok st else .error st

/-- src/parser/atom/mod.rs:104-108, the loop of `parse_literal` (`lit` is the whole literal). -/
def parseLiteralLoop (lit : Str) : Status → Str → Out Error Status
  | st, [] => .ok st
  | st, ch :: chs =>
    match parseChar st ch with
    | .ok st => parseLiteralLoop lit st chs
    | .error st => raise st (.literal lit) .normal

/-- src/parser/atom/mod.rs:103-110 `parse_literal` -/
def parseLiteral (st : Status) (lit : Str) : Out Error (Status × Node) :=
  match parseLiteralLoop lit st lit with
  | .ok st => .ok (st, .val lit)
  | .err e => .err e
  | .panic => .panic
  | .diverge => .diverge

/-- src/parser/atom/mod.rs:112-114 `parse_error` -/
def parseError (st : Status) (s : Str) : Out Error (Status × Node) :=
  raise st (.custom s) .critical

/-- src/parser/atom/mod.rs:116-122 `parse_dot` -/
def parseDot (st : Status) : Out Error (Status × Node) :=
  match getChar st with
  | .ok (st, ch) => .ok (st, .val [ch])
  | .error st => raise st .dot .normal

/-- src/parser/atom/mod.rs:125-136, closure `match_char` -/
def matchChar (chars : Str) (ranges : List (Char × Char)) (ch : Char) : Bool :=
  if chars.contains ch then true
  else ranges.any (fun bt => decide (bt.1 ≤ ch) && decide (ch ≤ bt.2))

/-- src/parser/atom/mod.rs:124-153 `parse_match` -/
def parseMatch (st : Status) (chars : Str) (ranges : List (Char × Char)) :
    Out Error (Status × Node) :=
  match getChar st with
  | .ok (st, ch) =>
    if matchChar chars ranges ch then .ok (st, .val [ch])
    else raise st (.mtch chars ranges) .normal
  | .error st => raise st (.mtch chars ranges) .normal

/-- src/parser/atom/mod.rs:155-160 `parse_eof` (note: yields the *value* node "EOF"). -/
def parseEof (st : Status) : Out Error (Status × Node) :=
  match getChar st with
  | .ok (st, _) => raise st .eof .normal
  | .error st => .ok (st, .val c!"EOF")

/-- src/parser/atom/mod.rs:60-68 `atom::parse` -/
def parseAtom (st : Status) : Atom → Out Error (Status × Node)
  | .literal s => parseLiteral st s
  | .error s => parseError st s
  | .mtch cs rs => parseMatch st cs rs
  | .dot => parseDot st
  | .eof => parseEof st

/-! ### Expressions (src/parser/expression/mod.rs)

All functions of the recursive nest take a fuel argument which decreases at every call (including the
iterations of `tail_call` loops); with fuel `0` they answer `diverge`. -/

/-- src/parser/expression/mod.rs:209-212 `parse_atom_as_expr` -/
def parseAtomAsExpr (st : Status) (a : Atom) : Out Error (Status × List Node) :=
  match parseAtom st a with
  | .ok (st, node) => .ok (st, [node])
  | .err e => .err e
  | .panic => .panic
  | .diverge => .diverge

/-- src/parser/expression/mod.rs:251-258, closure `deep_err` -/
def deepErr (oe1 : Option Error) (e2 : Error) : Option Error :=
  match oe1 with
  | some e1 =>
    match e1.priority.gt e2.priority, decide (e1.pos.n > e2.pos.n) with
    | true, _ => some e1
    | false, true => some e1
    | false, false => some e2
  | none => some e2

/-- src/parser/expression/mod.rs:297, closure `big_min_bound` -/
def bigMinBound (min : Nat) (counter : Nat) : Bool := decide (counter ≥ min)

/-- src/parser/expression/mod.rs:298-301, closure `touch_max_bound` -/
def touchMaxBound (max : Option Nat) (counter : Nat) : Bool :=
  match max with
  | some m => counter + 1 == m
  | none => false

mutual

/-- src/parser/expression/mod.rs:179-207 `parse_rule_name` -/
def parseRuleName (R : SetOfRules) : Nat → Status → Str → Out Error (Status × Node)
  | 0, _, _ => .diverge
  | f + 1, st, name =>
    let st := if st.traceRules then st.pushRule (c!"r:" ++ name) else st
    match R.get name with
    | none => raise st (.missingRule name) .critical
    | some expression =>
      match parseExpr R f st expression with
      | .ok (st, nodes) => .ok (st, .rule name nodes)
      | .err e => .err e
      | .panic => .panic
      | .diverge => .diverge

/-- src/parser/expression/mod.rs:219-228 `parse_expr`, with `parse_rule_name_as_expr` (214-217) and
`parse_not` (288-293) inlined as its arms. -/
def parseExpr (R : SetOfRules) : Nat → Status → Expr → Out Error (Status × List Node)
  | 0, _, _ => .diverge
  | _ + 1, st, .simple a => parseAtomAsExpr st a
  | f + 1, st, .and es => parseAnd R f st es []
  | f + 1, st, .or es => parseOr R f st es none
  | f + 1, st, .not e =>
    match parseExpr R f st e with
    | .ok _ => raise st .not .normal
    | .err _ => .ok (st, [])
    | .panic => .panic
    | .diverge => .diverge
  | f + 1, st, .rep e min max => parseRepeat R f e min max st 0 []
  | f + 1, st, .ruleName name =>
    match parseRuleName R f st name with
    | .ok (st, node) => .ok (st, [node])
    | .err e => .err e
    | .panic => .panic
    | .diverge => .diverge

/-- src/parser/expression/mod.rs:231-247 `parse_and`: the `tail_call` loop; the accumulator
`(status, remaining, nodes)` are the arguments. -/
def parseAnd (R : SetOfRules) : Nat → Status → List Expr → List Node → Out Error (Status × List Node)
  | 0, _, _, _ => .diverge
  | _ + 1, st, [], acc => .ok (st, acc)
  | f + 1, st, e :: es, acc =>
    match parseExpr R f st e with
    | .ok (st, vnodes) => parseAnd R f st es (acc ++ vnodes)
    | .err e => .err e
    | .panic => .panic
    | .diverge => .diverge

/-- src/parser/expression/mod.rs:250-285 `parse_or`: the `tail_call` loop; the status component of its
accumulator never changes, so it is the argument `st` throughout. -/
def parseOr (R : SetOfRules) : Nat → Status → List Expr → Option Error → Out Error (Status × List Node)
  | 0, _, _, _ => .diverge
  | _ + 1, st, [], acc =>
    match acc with
    | some err => .err err
    | none => raise st .orLogic .normal
  | f + 1, st, e :: es, acc =>
    match parseExpr R f st e with
    | .ok result => .ok result
    | .err e =>
      if e.priority = .critical then .err e
      else parseOr R f st es (deepErr acc e)
    | .panic => .panic
    | .diverge => .diverge

/-- src/parser/expression/mod.rs:296-327 `parse_repeat`: the `tail_call` loop with accumulator
`(status, counter, nodes)`. -/
def parseRepeat (R : SetOfRules) :
    Nat → Expr → Nat → Option Nat → Status → Nat → List Node → Out Error (Status × List Node)
  | 0, _, _, _, _, _, _ => .diverge
  | f + 1, e, min, max, st, counter, acc =>
    match parseExpr R f st e with
    | .err err =>
      if bigMinBound min counter then
        if err.priority = .critical then .err err
        else .ok (st.setPotentialError err, acc)
      else .err err
    | .ok (st', vnodes) =>
      if touchMaxBound max counter then .ok (st', acc ++ vnodes)
      else parseRepeat R f e min max st' (counter + 1) (acc ++ vnodes)
    | .panic => .panic
    | .diverge => .diverge

end

/-- src/parser/expression/mod.rs:219-228 `parse_expr`, without fuel: its result, or `diverge` if it
never returns. -/
noncomputable def runExpr (R : SetOfRules) (st : Status) (e : Expr) : Out Error (Status × List Node) :=
  limit fun fuel => parseExpr R fuel st e

/-- src/parser/expression/mod.rs:179-207 `parse_rule_name`, without fuel. -/
noncomputable def runRule (R : SetOfRules) (st : Status) (name : Str) : Out Error (Status × Node) :=
  limit fun fuel => parseRuleName R fuel st name

/-! ### API (src/lib.rs) -/

/-- src/parser/expression/mod.rs:171-173 `expression::parse` -/
def parseMain (R : SetOfRules) (fuel : Nat) (st : Status) : Out Error (Status × Node) :=
  parseRuleName R fuel st c!"main"

/-- src/lib.rs:503-521 `parse_with_debug` -/
def parseWithDebugF (fuel : Nat) (s : Str) (R : SetOfRules) (debug : Bool) : Out Error Node :=
  match (if debug then parseMain R fuel (.initDebug s debug) else parseMain R fuel (.init s)) with
  | .ok (st, ast) =>
    if st.pos.n = byteLen s then .ok ast
    else match st.potentialError with
      | some e => .err e
      | none => raise st .notConsumed .normal
  | .err e => .err e
  | .panic => .panic
  | .diverge => .diverge

/-- src/lib.rs:486-488 `dynparser::parse`. -/
noncomputable def parse (s : Str) (R : SetOfRules) : Out Error Node :=
  limit fun fuel => parseWithDebugF fuel s R false

/-- src/lib.rs:496-501 `dynparser::parse_debug`. -/
noncomputable def parseDebug (s : Str) (R : SetOfRules) : Out Error Node :=
  limit fun fuel => parseWithDebugF fuel s R true

end DP
