/-
Independent specification: writing rules in the PEG notation of the README, with parentheses only where
precedence demands them (repetition and negation bind tighter than sequence, sequence tighter than choice).
-/
import Verif.Spec.PegSyntax

namespace DP.Spec.Syntax

/-- capital hexadecimal digit -/
def hexDigit (n : Nat) : Char := if n < 10 then Char.ofNat (48 + n) else Char.ofNat (55 + n)

/-- one character between double quotes -/
def pieceOf (c : Char) : Piece :=
  if c = '\r' then .esc .cr
  else if c = '\n' then .esc .nl
  else if c = '\t' then .esc .tab
  else if c = '\\' then .esc .bs
  else if c = '"' then .esc .dq
  else if c.toNat < 128 then .plain c
  else .hex (hexDigit (c.toNat / 16)) (hexDigit (c.toNat % 16))

/-- a text between double quotes -/
def litOf (l : Str) : Lit := .double (l.map pieceOf)

/-- an expression as one alternative, with parentheses if it is a choice -/
def asSeq : Alt → Seq
  | .one s => s
  | a => .item (.plain (.par [] a [])) .nil

/-- an expression as one element of a sequence, with parentheses if it is a sequence, a choice or
`error(...)` -/
def asItem : Alt → Item
  | .one (.item i .nil) => i
  | a => .plain (.par [] a [])

/-- an expression as operand of `*`, `+`, `?` and `!`, with parentheses unless it is an atom -/
def asAtom : Alt → Atom
  | .one (.item (.plain a) .nil) => a
  | a => .par [] a []

/-- one element -/
def only (i : Item) : Alt := .one (.item i .nil)

/-- `a*`, `a+` and `a?` (other bounds have no notation) -/
def repOf (a : Atom) : Nat → Option Nat → Item
  | 0, none => .star a
  | 0, some _ => .opt a
  | _ + 1, _ => .plus a

mutual
/-- an expression -/
def altE : Expr → Alt
  | .simple (.literal l) => only (.plain (.lit (litOf l)))
  | .simple (.mtch cs rs) => only (.plain (.cls cs rs))
  | .simple .dot => only (.plain .dot)
  | .simple .eof => only (.plain .dot)   -- has no notation
  | .simple (.error m) => .one (.err [] [] (litOf m) [])
  | .ruleName n => only (.plain (.ref n))
  | .and es => .one (seqL es)
  | .or es => altL es
  | .not e => only (.not (asAtom (altE e)))
  | .rep e min max => only (repOf (asAtom (altE e)) min max)
/-- a sequence, separated by spaces -/
def seqL : List Expr → Seq
  | [] => .item (.plain .dot) .nil   -- has no notation
  | e :: es => .item (asItem (altE e)) (tailL es)
def tailL : List Expr → Tail
  | [] => .nil
  | e :: es => .item [.sp] (asItem (altE e)) (tailL es)
/-- alternatives, separated by slashes between spaces -/
def altL : List Expr → Alt
  | [] => only (.plain .dot)   -- has no notation
  | [e] => .one (asSeq (altE e))
  | e :: f :: es => .cons (asSeq (altE e)) [.sp] [.sp] (altL (f :: es))
end

/-- `name = expression` on one line -/
def ruleE (n : Str) (e : Expr) : Def := .rule n [.sp] [.sp] (altE e) ⟨[], .lf, []⟩

def defsE (n : Str) (e : Expr) : List (Str × Expr) → Defs
  | [] => .one (ruleE n e)
  | (m, f) :: rs => .cons (ruleE n e) (defsE m f rs)

/-- the text of one expression -/
def printExpr (e : Expr) : Str := (altE e).str

/-- the text of a list of rules, one per line -/
def printRules : List (Str × Expr) → Str
  | [] => []
  | (n, e) :: rs => (defsE n e rs).str

end DP.Spec.Syntax

