/-
Independent specification: the concrete syntax of PEG texts (README, "PEG rules grammar"). A document is a
tree that records every character of the text: blanks and comments, the kind of quotes, parentheses.
`str` is its text, `denote` its meaning and `OK` says that the text can be read back unambiguously.
-/
import Verif.Spec.PegNotation

namespace DP.Spec.Syntax

/-! ### Blanks and comments -/

/-- ends of line -/
inductive Eol | lf | crlf | cr
deriving Repr, DecidableEq

def Eol.str : Eol → Str
  | .lf => c!"\n"
  | .crlf => c!"\r\n"
  | .cr => c!"\r"

/-- a space, an end of line, a comment up to the end of the line, a comment between `/*` and `*/` -/
inductive Gap
  | sp
  | eol (e : Eol)
  | line (body : Str) (e : Eol)
  | multi (body : Str)
deriving Repr, DecidableEq

def Gap.str : Gap → Str
  | .sp => c!" "
  | .eol e => e.str
  | .line b e => c!"//" ++ b ++ e.str
  | .multi b => c!"/*" ++ b ++ c!"*/"

abbrev Gaps := List Gap

def gapsStr : Gaps → Str
  | [] => []
  | g :: gs => g.str ++ gapsStr gs

/-- a line comment has no end of line inside, a `/*` comment no `*/` -/
def Gap.OK : Gap → Prop
  | .line b _ => ∀ c ∈ b, c ≠ '\n' ∧ c ≠ '\r'
  | .multi b => ¬ c!"*/" <:+: b
  | _ => True

instance (g : Gap) : Decidable g.OK := by cases g <;> (unfold Gap.OK; infer_instance)

/-- ends with a carriage return that could be the first half of `\r\n` -/
def Gap.endsCR : Gap → Bool
  | .eol .cr => true
  | .line _ .cr => true
  | _ => false

def Gap.isComment : Gap → Bool
  | .line _ _ => true
  | .multi _ => true
  | _ => false

def Gap.isEol : Gap → Bool
  | .eol _ => true
  | _ => false

/-- every gap is fine, and `\r` followed by `\n` is written as one end of line -/
def GapsOK : Gaps → Prop
  | [] => True
  | [g] => g.OK
  | g :: h :: gs => g.OK ∧ ¬ (g.endsCR = true ∧ h = .eol .lf) ∧ GapsOK (h :: gs)

def GapsOK.dec : (gs : Gaps) → Decidable (GapsOK gs)
  | [] => isTrue trivial
  | [g] => inferInstanceAs (Decidable g.OK)
  | g :: h :: gs =>
    have := GapsOK.dec (h :: gs)
    inferInstanceAs (Decidable (g.OK ∧ ¬ (g.endsCR = true ∧ h = .eol .lf) ∧ GapsOK (h :: gs)))

instance (gs : Gaps) : Decidable (GapsOK gs) := GapsOK.dec gs

/-! ### Literals -/

/-- the escapes of double-quoted literals -/
inductive Esc | cr | nl | tab | bs | dq
deriving Repr, DecidableEq

def Esc.letter : Esc → Char
  | .cr => 'r'
  | .nl => 'n'
  | .tab => 't'
  | .bs => '\\'
  | .dq => '"'

def Esc.val : Esc → Char
  | .cr => '\r'
  | .nl => '\n'
  | .tab => '\t'
  | .bs => '\\'
  | .dq => '"'

/-- one piece of a double-quoted literal -/
inductive Piece
  | esc (e : Esc)
  | hex (h l : Char)
  | plain (c : Char)
deriving Repr, DecidableEq

def Piece.str : Piece → Str
  | .esc e => ['\\', e.letter]
  | .hex h l => ['\\', '0', 'x', h, l]
  | .plain c => [c]

/-- hexadecimal digits, capitals only -/
def HexDigit (c : Char) : Prop := ('0' ≤ c ∧ c ≤ '9') ∨ ('A' ≤ c ∧ c ≤ 'F')

instance (c : Char) : Decidable (HexDigit c) := by unfold HexDigit; infer_instance

def digitVal (c : Char) : Nat := if c ≤ '9' then c.toNat - 48 else c.toNat - 55

def Piece.val : Piece → Char
  | .esc e => e.val
  | .hex h l => Char.ofNat (16 * digitVal h + digitVal l)
  | .plain c => c

def piecesStr : List Piece → Str
  | [] => []
  | p :: ps => p.str ++ piecesStr ps

/-- the text after a backslash completes an escape -/
def EscTail (t : Str) : Prop :=
  match t with
  | 'r' :: _ => True
  | 'n' :: _ => True
  | 't' :: _ => True
  | '\\' :: _ => True
  | '"' :: _ => True
  | '0' :: 'x' :: h :: l :: _ => HexDigit h ∧ HexDigit l
  | _ => False

instance (t : Str) : Decidable (EscTail t) := by unfold EscTail; split <;> infer_instance

/-- no bare quote; a bare backslash does not start an escape -/
def PiecesOK : List Piece → Prop
  | [] => True
  | .esc _ :: ps => PiecesOK ps
  | .hex h l :: ps => HexDigit h ∧ HexDigit l ∧ PiecesOK ps
  | .plain c :: ps => c ≠ '"' ∧ (c = '\\' → ¬ EscTail (piecesStr ps ++ ['"'])) ∧ PiecesOK ps

def PiecesOK.dec : (ps : List Piece) → Decidable (PiecesOK ps)
  | [] => isTrue trivial
  | .esc _ :: ps => PiecesOK.dec ps
  | .hex h l :: ps =>
    have := PiecesOK.dec ps
    inferInstanceAs (Decidable (HexDigit h ∧ HexDigit l ∧ PiecesOK ps))
  | .plain c :: ps =>
    have := PiecesOK.dec ps
    inferInstanceAs (Decidable (c ≠ '"' ∧ (c = '\\' → ¬ EscTail (piecesStr ps ++ ['"'])) ∧ PiecesOK ps))

instance (ps : List Piece) : Decidable (PiecesOK ps) := PiecesOK.dec ps

/-- literals, between single or double quotes -/
inductive Lit
  | single (body : Str)
  | double (ps : List Piece)
deriving Repr, DecidableEq

def Lit.str : Lit → Str
  | .single b => '\'' :: b ++ ['\'']
  | .double ps => '"' :: piecesStr ps ++ ['"']

def Lit.OK : Lit → Prop
  | .single b => '\'' ∉ b
  | .double ps => PiecesOK ps

instance (l : Lit) : Decidable l.OK := by cases l <;> (unfold Lit.OK; infer_instance)

/-- backslashes doubled -/
def doubled (s : Str) : Str := s.flatMap fun c => if c = '\\' then ['\\', '\\'] else [c]

/-- The text denoted by a literal: between single quotes backslashes are doubled and the empty literal is
not accepted. -/
def Lit.val : Lit → Option Str
  | .single b => if b = [] then none else some (doubled b)
  | .double ps => some (ps.map Piece.val)

/-! ### Expressions -/

/-- the text of a class -/
def rangesStr : List (Char × Char) → Str
  | [] => []
  | (a, b) :: rs => [a, '-', b] ++ rangesStr rs

/-- classes that can be read back (`ValidClass` without the restriction to ASCII) -/
structure ClassOK (cs : Str) (rs : List (Char × Char)) : Prop where
  nonempty : cs ≠ [] ∨ rs ≠ []
  no_bracket : ']' ∉ cs
  no_dash : '-' ∉ cs.tail
  no_dash_range : cs ≠ [] → ∀ r ∈ rs.head?, r.1 ≠ '-'

mutual
/-- atoms and parentheses -/
inductive Atom
  | lit (l : Lit)
  | cls (cs : Str) (rs : List (Char × Char))
  | ref (n : Str)
  | dot
  | par (g1 : Gaps) (e : Alt) (g2 : Gaps)
/-- repetitions and negations -/
inductive Item
  | plain (a : Atom)
  | star (a : Atom)
  | plus (a : Atom)
  | opt (a : Atom)
  | not (a : Atom)
/-- sequences: `error(...)` alone, or an item and what follows it -/
inductive Seq
  | err (g1 g2 : Gaps) (l : Lit) (g3 : Gaps)
  | item (i : Item) (t : Tail)
/-- the following elements of a sequence -/
inductive Tail
  | nil
  | item (g : Gaps) (i : Item) (t : Tail)
  | err (g g1 g2 : Gaps) (l : Lit) (g3 : Gaps) (t : Tail)
/-- alternatives -/
inductive Alt
  | one (s : Seq)
  | cons (s : Seq) (g1 g2 : Gaps) (a : Alt)
end

/-- the text of `error(...)` -/
def errStr (g1 g2 : Gaps) (l : Lit) (g3 : Gaps) : Str :=
  c!"error" ++ gapsStr g1 ++ c!"(" ++ gapsStr g2 ++ l.str ++ gapsStr g3 ++ c!")"

mutual
def Atom.str : Atom → Str
  | .lit l => l.str
  | .cls cs rs => '[' :: cs ++ rangesStr rs ++ [']']
  | .ref n => n
  | .dot => c!"."
  | .par g1 e g2 => '(' :: gapsStr g1 ++ e.str ++ gapsStr g2 ++ [')']
def Item.str : Item → Str
  | .plain a => a.str
  | .star a => a.str ++ ['*']
  | .plus a => a.str ++ ['+']
  | .opt a => a.str ++ ['?']
  | .not a => '!' :: a.str
def Seq.str : Seq → Str
  | .err g1 g2 l g3 => errStr g1 g2 l g3
  | .item i t => i.str ++ t.str
def Tail.str : Tail → Str
  | .nil => []
  | .item g i t => gapsStr g ++ i.str ++ t.str
  | .err g g1 g2 l g3 t => gapsStr g ++ errStr g1 g2 l g3 ++ t.str
def Alt.str : Alt → Str
  | .one s => s.str
  | .cons s g1 g2 a => s.str ++ gapsStr g1 ++ ['/'] ++ gapsStr g2 ++ a.str
end

/-- elements of a sequence are separated by blanks, and comments come after the first blank -/
def SepOK (g : Gaps) : Prop := GapsOK g ∧ ∃ h gs, g = h :: gs ∧ h.isComment = false

/-- the gap after `/` does not turn it into a comment -/
def SlashOK (g : Gaps) : Prop := GapsOK g ∧ ∀ h ∈ g.head?, h.isComment = false

/-- `error` followed by a literal in parentheses is not a reference but an `error(...)` -/
def LooksLikeError : Item → Tail → Prop
  | .plain (.ref n), .item _ i _ => n = c!"error" ∧ match i with
    | .plain (.par _ (.one (.item (.plain (.lit _)) .nil)) _) => True
    | .star (.par _ (.one (.item (.plain (.lit _)) .nil)) _) => True
    | .plus (.par _ (.one (.item (.plain (.lit _)) .nil)) _) => True
    | .opt (.par _ (.one (.item (.plain (.lit _)) .nil)) _) => True
    | _ => False
  | _, _ => False

def ErrOK (g1 g2 : Gaps) (l : Lit) (g3 : Gaps) : Prop := GapsOK g1 ∧ GapsOK g2 ∧ l.OK ∧ GapsOK g3

mutual
def Atom.OK : Atom → Prop
  | .lit l => l.OK
  | .cls cs rs => ClassOK cs rs
  | .ref n => ValidName n
  | .dot => True
  | .par g1 e g2 => GapsOK g1 ∧ e.OK ∧ GapsOK g2
def Item.OK : Item → Prop
  | .plain a => a.OK
  | .star a => a.OK
  | .plus a => a.OK
  | .opt a => a.OK
  | .not a => a.OK
def Seq.OK : Seq → Prop
  | .err g1 g2 l g3 => ErrOK g1 g2 l g3
  | .item i t => i.OK ∧ t.OK ∧ ¬ LooksLikeError i t
def Tail.OK : Tail → Prop
  | .nil => True
  | .item g i t => SepOK g ∧ i.OK ∧ t.OK ∧ ¬ LooksLikeError i t
  | .err g g1 g2 l g3 t => SepOK g ∧ ErrOK g1 g2 l g3 ∧ t.OK
def Alt.OK : Alt → Prop
  | .one s => s.OK
  | .cons s g1 g2 a => s.OK ∧ GapsOK g1 ∧ SlashOK g2 ∧ a.OK
end

/-! Meaning. One element of a sequence or one alternative stands for itself, several for a sequence or a
choice. `error(...)` must be the last element of its sequence. -/

def seqOf : List Expr → Expr
  | [e] => e
  | es => .and es

def altOf : List Expr → Expr
  | [e] => e
  | es => .or es

mutual
def Atom.denote : Atom → Option Expr
  | .lit l => l.val.map fun v => .simple (.literal v)
  | .cls cs rs => some (.simple (.mtch cs rs))
  | .ref n => some (.ruleName n)
  | .dot => some (.simple .dot)
  | .par _ e _ => e.denote.map altOf
def Item.denote : Item → Option Expr
  | .plain a => a.denote
  | .star a => a.denote.map fun e => .rep e 0 none
  | .plus a => a.denote.map fun e => .rep e 1 none
  | .opt a => a.denote.map fun e => .rep e 0 (some 1)
  | .not a => a.denote.map .not
/-- the elements of a sequence -/
def Seq.denote : Seq → Option (List Expr)
  | .err _ _ l _ => l.val.map fun v => [.simple (.error v)]
  | .item i t => i.denote.bind fun e => t.denote.map (e :: ·)
def Tail.denote : Tail → Option (List Expr)
  | .nil => some []
  | .item _ i t => i.denote.bind fun e => t.denote.map (e :: ·)
  | .err _ _ _ l _ .nil => l.val.map fun v => [.simple (.error v)]
  | .err _ _ _ _ _ _ => none
/-- the alternatives -/
def Alt.denote : Alt → Option (List Expr)
  | .one s => s.denote.map fun es => [seqOf es]
  | .cons s _ _ a => s.denote.bind fun es => a.denote.map (seqOf es :: ·)
end

/-! ### Documents -/

/-- the end of a rule: spaces and comments, an end of line, then any blanks and comments -/
structure Term where
  before : Gaps
  eol : Eol
  after : Gaps

def Term.gaps (t : Term) : Gaps := t.before ++ .eol t.eol :: t.after

def Term.OK (t : Term) : Prop := GapsOK t.gaps ∧ ∀ g ∈ t.before, g.isEol = false

mutual
/-- rules and modules -/
inductive Def
  | rule (n : Str) (g1 g2 : Gaps) (e : Alt) (t : Term)
  | module (n : Str) (g1 g2 : Gaps) (ds : Defs) (t : Term)
inductive Defs
  | one (d : Def)
  | cons (d : Def) (ds : Defs)
end

mutual
def Def.str : Def → Str
  | .rule n g1 g2 e t => n ++ gapsStr g1 ++ ['='] ++ gapsStr g2 ++ e.str ++ gapsStr t.gaps
  | .module n g1 g2 ds t => n ++ gapsStr g1 ++ ['{'] ++ gapsStr g2 ++ ds.str ++ ['}'] ++ gapsStr t.gaps
def Defs.str : Defs → Str
  | .one d => d.str
  | .cons d ds => d.str ++ ds.str
end

mutual
def Def.OK : Def → Prop
  | .rule n g1 g2 e t => ValidName n ∧ GapsOK g1 ∧ GapsOK g2 ∧ e.OK ∧ t.OK
  | .module n g1 g2 ds t => ValidSymbol n ∧ GapsOK g1 ∧ GapsOK g2 ∧ ds.OK ∧ t.OK
def Defs.OK : Defs → Prop
  | .one d => d.OK
  | .cons d ds => d.OK ∧ ds.OK
end

/-- what a list of definitions says about a name, given what was said before: a rule replaces, the rules of
a module (under their bare names) only fill in -/
abbrev Meaning := Str → Option Expr

mutual
def Def.denote (m : Meaning) : Def → Option Meaning
  | .rule n _ _ e _ => e.denote.map fun es x => if x = n then some (altOf es) else m x
  | .module _ _ _ ds _ => (ds.denote fun _ => none).map fun m' x => (m x).or (m' x)
def Defs.denote (m : Meaning) : Defs → Option Meaning
  | .one d => d.denote m
  | .cons d ds => (d.denote m).bind fun m' => ds.denote m'
end

/-- a document -/
structure Doc where
  before : Gaps
  defs : Defs

def Doc.str (d : Doc) : Str := gapsStr d.before ++ d.defs.str

def Doc.OK (d : Doc) : Prop := GapsOK d.before ∧ d.defs.OK

def Doc.denote (d : Doc) : Option Meaning := d.defs.denote fun _ => none

end DP.Spec.Syntax
