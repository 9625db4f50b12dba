/-
Independent specification: which names, literals, classes and expressions the PEG notation can express.
-/
import Verif.Spec.Text
import Verif.Spec.Peg

namespace DP.Spec

/-- a letter, a digit or an underscore -/
def WordChar (c : Char) : Prop :=
  c = '_' ∨ ('a' ≤ c ∧ c ≤ 'z') ∨ ('A' ≤ c ∧ c ≤ 'Z') ∨ ('0' ≤ c ∧ c ≤ '9')

instance (c : Char) : Decidable (WordChar c) := by unfold WordChar; infer_instance

/-- the first character is a word character, the following ones may also be quotes -/
def ValidSymbol (s : Str) : Prop :=
  ∃ c cs, s = c :: cs ∧ WordChar c ∧ ∀ d ∈ cs, WordChar d ∨ d = '\'' ∨ d = '"'

/-- symbols separated by dots, possibly with a dot in front -/
inductive DottedTail : Str → Prop
  | nil : DottedTail []
  | cons {y t} : ValidSymbol y → DottedTail t → DottedTail ('.' :: y ++ t)

/-- names of rules -/
def ValidName (n : Str) : Prop :=
  ∃ d y t, (d = [] ∨ d = ['.']) ∧ ValidSymbol y ∧ DottedTail t ∧ n = d ++ y ++ t

/-- literals: every character up to U+00FF can be written (with an escape if need be) -/
def ValidLiteral (l : Str) : Prop := ∀ c ∈ l, c.toNat < 256

/-- Character classes that can be written between brackets: the single characters come first, they do not
include `]`, and a `-` can only be the first of them; a range starting at `-` cannot follow them. -/
structure ValidClass (cs : Str) (rs : List (Char × Char)) : Prop where
  nonempty : cs ≠ [] ∨ rs ≠ []
  ascii : Ascii cs ∧ ∀ r ∈ rs, r.1.toNat < 128 ∧ r.2.toNat < 128
  no_bracket : ']' ∉ cs
  no_dash : '-' ∉ cs.tail
  no_dash_range : cs ≠ [] → ∀ r ∈ rs.head?, r.1 ≠ '-'

/-- The expressions of the PEG notation. -/
inductive PegExpr : Expr → Prop
  | literal {l} : ValidLiteral l → PegExpr (.simple (.literal l))
  | error {m} : ValidLiteral m → PegExpr (.simple (.error m))
  | dot : PegExpr (.simple .dot)
  | cls {cs rs} : ValidClass cs rs → PegExpr (.simple (.mtch cs rs))
  | ref {n} : ValidName n → PegExpr (.ruleName n)
  | and {es} : 2 ≤ es.length → (∀ e ∈ es, PegExpr e) → PegExpr (.and es)
  | or {es} : 2 ≤ es.length → (∀ e ∈ es, PegExpr e) → PegExpr (.or es)
  | not {e} : PegExpr e → PegExpr (.not e)
  | star {e} : PegExpr e → PegExpr (.rep e 0 none)
  | plus {e} : PegExpr e → PegExpr (.rep e 1 none)
  | opt {e} : PegExpr e → PegExpr (.rep e 0 (some 1))

/-- Sets of rules of the PEG notation. -/
def PegRulesOK (R : SetOfRules) : Prop := ∀ ne ∈ R.entries, ValidName ne.1 ∧ PegExpr ne.2

end DP.Spec
