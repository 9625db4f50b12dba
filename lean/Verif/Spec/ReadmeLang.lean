/-
Independent specification: the languages that README.md says its grammars describe. Only texts and nodes
are mentioned here, no rules and no function of the parser.
-/
import Verif.Spec.Text
import Verif.Model.Ast

namespace DP.Spec.Readme

def Letter (c : Char) : Prop := ('a' ≤ c ∧ c ≤ 'z') ∨ ('A' ≤ c ∧ c ≤ 'Z')

def Digit (c : Char) : Prop := '0' ≤ c ∧ c ≤ '9'

instance (c : Char) : Decidable (Letter c) :=
  inferInstanceAs (Decidable (('a' ≤ c ∧ c ≤ 'z') ∨ ('A' ≤ c ∧ c ≤ 'Z')))

instance (c : Char) : Decidable (Digit c) := inferInstanceAs (Decidable ('0' ≤ c ∧ c ≤ '9'))

/-! ### The basic example -/

/-- the node of a character of the basic example -/
def wordNode (c : Char) : Node :=
  .rule c!"letter_or_num" [.rule (if Letter c then c!"letter" else c!"number") [.val [c]]]

/-! ### Balanced parentheses around `hello` -/

/-- `n` opening parentheses, `hello`, `m` closing ones -/
def parens (n m : Nat) : Str := List.replicate n '(' ++ c!"hello" ++ List.replicate m ')'

/-- the tree of `hello` in `n` pairs of parentheses -/
def nested : Nat → Node
  | 0 => .rule c!"main" [.val c!"hello"]
  | n + 1 => .rule c!"main" [.val c!"(", nested n, .val c!")"]

/-! ### The calculator: arithmetic expressions -/

/-- one or more digits -/
def Digits (s : Str) : Prop := s ≠ [] ∧ ∀ c ∈ s, Digit c

def chars (s : Str) : List Node := s.map fun c => .val [c]

/-- `Numeral s ns`: `s` is a decimal numeral, with or without fractional part -/
inductive Numeral : Str → List Node → Prop
  | whole {i} : Digits i → Numeral i (chars i)
  | frac {i f} : Digits i → Digits f → Numeral (i ++ '.' :: f) (chars i ++ .val c!"." :: chars f)

def spaces (n : Nat) : Str := List.replicate n ' '

/-- the node of `n` spaces -/
def blank (n : Nat) : Node := .rule c!"_" (chars (spaces n))

/-- the node of a symbol for an operation, of the given kind -/
def symbol (kind : Str) (c : Char) : Node := .rule kind [.val [c]]

mutual
/-- `Factor s t`: a numeral, or a sum in parentheses. (No spaces after `(` or before `)`: the grammar does
not allow them.) -/
inductive Factor : Str → Node → Prop
  | numeral {s ns} : Numeral s ns →
      Factor s (.rule c!"portion_expr" [.rule c!"item" [.rule c!"num" ns]])
  | parens {s t} : Addition s t →
      Factor ('(' :: s ++ [')']) (.rule c!"portion_expr" [.val c!"(", t, .val c!")"])
/-- factors, each after `*` or `/`, which may be surrounded by spaces -/
inductive Factors : Str → List Node → Prop
  | nil : Factors [] []
  | cons {m c n s t r ts} : c = '*' ∨ c = '/' → Factor s t → Factors r ts →
      Factors (spaces m ++ c :: spaces n ++ s ++ r)
        (blank m :: symbol c!"fact_op" c :: blank n :: .rule c!"fact_t" [t] :: ts)
/-- a product -/
inductive Product : Str → Node → Prop
  | mk {s t r ts} : Factor s t → Factors r ts → Product (s ++ r) (.rule c!"add_t" (.rule c!"fact_t" [t] :: ts))
/-- products, each after `+` or `-`, which may be surrounded by spaces -/
inductive Products : Str → List Node → Prop
  | nil : Products [] []
  | cons {m c n s t r ts} : c = '+' ∨ c = '-' → Product s t → Products r ts →
      Products (spaces m ++ c :: spaces n ++ s ++ r) (blank m :: symbol c!"add_op" c :: blank n :: t :: ts)
/-- a sum of products -/
inductive Addition : Str → Node → Prop
  | mk {s t r ts} : Product s t → Products r ts → Addition (s ++ r) (.rule c!"expr" (t :: ts))
end

/-! ### The calculator: the tree that is printed -/

/-- the text without its spaces -/
def squeeze (s : Str) : Str := s.filter (· ≠ ' ')

/-- what README.md prints of a tree of the calculator: `.compact().prune(&vec!["_"])
.pass_through_except(&vec!["main", "add_t", "fact_t"])` -/
def tidy (t : Node) : Node :=
  Node.passThrough [c!"main", c!"add_t", c!"fact_t"] (Node.prune [c!"_"] (Node.compact t))

mutual
/-- `FactorShown s t`: how a factor written without spaces is shown -/
inductive FactorShown : Str → Node → Prop
  | numeral {s ns} : Numeral s ns → FactorShown s (.rule c!"fact_t" [.val s])
  | parens {s ts} : SumShown s ts →
      FactorShown ('(' :: s ++ [')']) (.rule c!"fact_t" (.val c!"(" :: ts ++ [.val c!")"]))
/-- the other factors of a product, with their operations -/
inductive FactorsShown : Str → List Node → Prop
  | nil : FactorsShown [] []
  | cons {c s t r ts} : c = '*' ∨ c = '/' → FactorShown s t → FactorsShown r ts →
      FactorsShown (c :: s ++ r) (.val [c] :: t :: ts)
/-- a product -/
inductive ProductShown : Str → Node → Prop
  | mk {s t r ts} : FactorShown s t → FactorsShown r ts → ProductShown (s ++ r) (.rule c!"add_t" (t :: ts))
/-- the other products of a sum, with their operations -/
inductive ProductsShown : Str → List Node → Prop
  | nil : ProductsShown [] []
  | cons {c s t r ts} : c = '+' ∨ c = '-' → ProductShown s t → ProductsShown r ts →
      ProductsShown (c :: s ++ r) (.val [c] :: t :: ts)
/-- a sum -/
inductive SumShown : Str → List Node → Prop
  | mk {s t r ts} : ProductShown s t → ProductsShown r ts → SumShown (s ++ r) (t :: ts)
end

end DP.Spec.Readme
