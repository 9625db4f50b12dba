/-
Texts of values: `{:?}` and `{:#?}` of the types that derive `Debug`, and `{}` of `peg::Error`.

The formatter is the one of the Rust standard library (`core::fmt::builders`, `char::escape_debug_ext`). What
differs between its versions, and the table of printable characters beyond ASCII, is a parameter.
-/
import Verif.Model.Peg
import Verif.Model.Gcode

namespace DP

namespace Debug

/-- What depends on the version of the standard library. -/
structure Style where
  /-- which characters beyond ASCII are shown as they are -/
  raw : Char → Bool
  /-- `{:#?}` ends the last entry with a comma, too -/
  comma : Bool
  /-- in strings `'`, and in characters `"`, is escaped -/
  bothQuotes : Bool
  /-- NUL is shown as `\0` (and not as `\u{0}`) -/
  nul : Bool

/-- the brackets of a group of entries -/
inductive Kind where
  | tuple
  | list
  | map
  | struct
deriving Repr, DecidableEq

mutual
/-- What `derive(Debug)` tells the formatter. -/
inductive Dbg where
  | str (s : Str)
  | chr (c : Char)
  | num (n : Nat)
  /-- `debug_tuple`, `debug_list`, `debug_map`, `debug_struct`; variants without fields are tuples without
  entries, lists and maps have no name. -/
  | group (k : Kind) (name : Str) (es : List Entry)
inductive Entry where
  | plain (d : Dbg)
  | field (name : Str) (d : Dbg)
  | pair (key d : Dbg)
end

/-- `char::is_printable` and not `is_grapheme_extended` -/
def shown (sty : Style) (c : Char) : Bool :=
  if c.toNat < 128 then 32 ≤ c.toNat && c.toNat ≠ 127 else sty.raw c

/-- `char::escape_debug_ext`, between the quotes `q` -/
def escChar (sty : Style) (q c : Char) : Str :=
  if c = '\t' then c!"\\t"
  else if c = '\r' then c!"\\r"
  else if c = '\n' then c!"\\n"
  else if c = '\\' then c!"\\\\"
  else if c = q || (sty.bothQuotes && (c = '\'' || c = '"')) then ['\\', c]
  else if c.toNat = 0 && sty.nul then c!"\\0"
  else if shown sty c then [c]
  else c!"\\u{" ++ Nat.toDigits 16 c.toNat ++ c!"}"

def escStr (sty : Style) (q : Char) : Str → Str
  | [] => []
  | c :: s => escChar sty q c ++ escStr sty q s

/-- `none`: everything on one line; `some n`: one entry per line, `n` is the depth -/
abbrev Layout := Option Nat

def indent (n : Nat) : Str := List.replicate (4 * n) ' '

def newline : Layout → Str
  | none => []
  | some n => '\n' :: indent n

def opening (lay : Layout) : Kind → Str
  | .tuple => c!"(" ++ newline (lay.map (· + 1))
  | .list => c!"[" ++ newline (lay.map (· + 1))
  | .map => c!"{" ++ newline (lay.map (· + 1))
  | .struct => if lay.isNone then c!" { " else c!" {" ++ newline (lay.map (· + 1))

def separator (lay : Layout) : Str :=
  if lay.isNone then c!", " else c!"," ++ newline (lay.map (· + 1))

def closing (sty : Style) (lay : Layout) (k : Kind) : Str :=
  (if lay.isSome && sty.comma then c!"," else []) ++ newline lay ++
    match k with
    | .tuple => c!")"
    | .list => c!"]"
    | .map => c!"}"
    | .struct => if lay.isNone then c!" }" else c!"}"

mutual
/-- `{:?}` (`lay = none`) and `{:#?}` (`lay = some 0`) -/
def fmt (sty : Style) (lay : Layout) : Dbg → Str
  | .str s => c!"\"" ++ escStr sty '"' s ++ c!"\""
  | .chr c => c!"'" ++ escChar sty '\'' c ++ c!"'"
  | .num n => Nat.toDigits 10 n
  | .group .list name [] => name ++ c!"[]"
  | .group .map name [] => name ++ c!"{}"
  | .group _ name [] => name
  | .group k name (e :: es) => name ++ opening lay k ++ fmtEntry sty lay e ++ fmtEntries sty lay es ++ closing sty lay k
/-- the entries after the first one -/
def fmtEntries (sty : Style) (lay : Layout) : List Entry → Str
  | [] => []
  | e :: es => separator lay ++ fmtEntry sty lay e ++ fmtEntries sty lay es
def fmtEntry (sty : Style) (lay : Layout) : Entry → Str
  | .plain d => fmt sty (lay.map (· + 1)) d
  | .field n d => n ++ c!": " ++ fmt sty (lay.map (· + 1)) d
  | .pair k d => fmt sty (lay.map (· + 1)) k ++ c!": " ++ fmt sty (lay.map (· + 1)) d
end

/-! ### the values -/

/-- a variant or tuple struct with these fields; a tuple, if the name is empty -/
def call (name : Str) (ds : List Dbg) : Dbg := .group .tuple name (ds.map .plain)
def vec (ds : List Dbg) : Dbg := .group .list [] (ds.map .plain)
def struct (name : Str) (fs : List (Str × Dbg)) : Dbg := .group .struct name (fs.map fun f => .field f.1 f.2)
def opt : Option Dbg → Dbg
  | none => call c!"None" []
  | some d => call c!"Some" [d]

mutual
/-- src/ast/mod.rs:36-46 `ast::Node` -/
def ofNode : Node → Dbg
  | .val s => call c!"Val" [.str s]
  | .rule n ns => call c!"Rule" [call [] [.str n, vec (ofNodes ns)]]
  | .eof => call c!"EOF" []
def ofNodes : List Node → List Dbg
  | [] => []
  | n :: ns => ofNode n :: ofNodes ns
end

/-- src/ast/flat.rs:25-35 `flat::Node` -/
def ofFNode : FNode → Dbg
  | .val s => call c!"Val" [.str s]
  | .beginRule n => call c!"BeginRule" [.str n]
  | .endRule n => call c!"EndRule" [.str n]
  | .eof => call c!"EOF" []

def ofRanges (rs : List (Char × Char)) : Dbg := vec (rs.map fun r => call [] [.chr r.1, .chr r.2])

/-- src/parser/atom/mod.rs:19-38 `Atom`, `MatchRules` -/
def ofAtom : Atom → Dbg
  | .literal s => call c!"Literal" [.str s]
  | .mtch cs rs => call c!"Match" [call c!"MatchRules" [.str cs, ofRanges rs]]
  | .error s => call c!"Error" [.str s]
  | .dot => call c!"Dot" []
  | .eof => call c!"EOF" []

def ofNRep (n : Nat) : Dbg := call c!"NRep" [.num n]

mutual
/-- src/parser/expression/mod.rs:108-154 `Expression`, `MultiExpr`, `RepInfo`, `NRep` -/
def ofExpr : Expr → Dbg
  | .simple a => call c!"Simple" [ofAtom a]
  | .and es => call c!"And" [call c!"MultiExpr" [vec (ofExprs es)]]
  | .or es => call c!"Or" [call c!"MultiExpr" [vec (ofExprs es)]]
  | .not e => call c!"Not" [ofExpr e]
  | .rep e mn mx => call c!"Repeat" [struct c!"RepInfo"
      [(c!"expression", ofExpr e), (c!"min", ofNRep mn), (c!"max", opt (mx.map ofNRep))]]
  | .ruleName n => call c!"RuleName" [.str n]
def ofExprs : List Expr → List Dbg
  | [] => []
  | e :: es => ofExpr e :: ofExprs es
end

/-- src/parser/expression/mod.rs:33-34 `SetOfRules`, for an order of the entries of the hash map -/
def ofRules (entries : List (Str × Expr)) : Dbg :=
  call c!"SetOfRules" [.group .map [] (entries.map fun r => .pair (.str r.1) (ofExpr r.2))]

/-- src/parser/mod.rs:32-42 `Possition` -/
def ofPos (p : Pos) : Dbg :=
  struct c!"Possition" [(c!"n", .num p.n), (c!"row", .num p.row), (c!"col", .num p.col),
    (c!"start_line", .num p.startLine)]

/-- src/parser/mod.rs:56-62 `ErrPriority` -/
def ofPrio : Prio → Dbg
  | .normal => call c!"Normal" []
  | .critical => call c!"Critical" []

/-- The string stored in `Error::descr` -/
def descrText (sty : Style) (d : Descr) : Str := d.render fun rs => fmt sty none (ofRanges rs)

/-- src/parser/mod.rs:65-82 `parser::Error` -/
def ofError (sty : Style) (e : Error) : Dbg :=
  struct c!"Error" [(c!"pos", ofPos e.pos), (c!"descr", .str (descrText sty e.descr)),
    (c!"line_before", .str e.lineBefore), (c!"line_after", .str e.lineAfter),
    (c!"parsing_rules", vec (e.parsingRules.map .str)), (c!"priority", ofPrio e.priority)]

/-- src/ast/mod.rs:18-19 `ast::Error` -/
def ofAstError (e : AstError) : Dbg := call c!"Error" [.str e.desc, opt (e.ctx.map .str)]

/-- src/peg/mod.rs:55-67 `peg::Error` -/
def ofPegError (sty : Style) : PegError → Dbg
  | .peg s none => call c!"Peg" [call [] [.str s, opt none]]
  | .peg s (some e) => call c!"Peg" [call [] [.str s, opt (some (ofPegError sty e))]]
  | .parser e => call c!"Parser" [ofError sty e]
  | .ast e => call c!"Ast" [ofAstError e]

/-- src/peg/mod.rs:93-102 `Display for Error`, with the texts of the wrapped errors -/
def displayPeg (sty : Style) (e : PegError) : Str :=
  Peg.display (fun p => fmt sty none (ofError sty p)) (fun a => fmt sty none (ofAstError a)) e

/-- `{:?}` -/
def debug (sty : Style) (d : Dbg) : Str := fmt sty none d
/-- `{:#?}` -/
def pretty (sty : Style) (d : Dbg) : Str := fmt sty (some 0) d

end Debug

end DP
