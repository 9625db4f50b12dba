/-
Model of src/peg/gcode.rs: Rust source text from a set of rules.
-/
import Verif.Model.Parser

namespace DP.Gcode

/-- one `str::replace` of a single character by a string -/
def replaceChar (c : Char) (by_ : Str) : Str → Str
  | [] => []
  | x :: xs => if x = c then by_ ++ replaceChar c by_ xs else x :: replaceChar c by_ xs

/-- src/peg/gcode.rs:86-91 closure `replace_esc` -/
def replaceEsc (s : Str) : Str :=
  replaceChar '"' c!"\\\"" (replaceChar '\t' c!"\\t" (replaceChar '\r' c!"\\r"
    (replaceChar '\n' c!"\\n" s)))

/-- src/peg/gcode.rs:103-110 `bounds2code` -/
def bounds2code (acc : Str) : List (Char × Char) → Str
  | (f, t) :: rest => c!", from '" ++ [f] ++ c!"', to '" ++ [t] ++ c!"' " ++ bounds2code acc rest
  | [] => acc

/-- src/peg/gcode.rs:102-117 `match_rules2code` -/
def matchRules2code (chars : Str) (ranges : List (Char × Char)) : Str :=
  c!"ematch!(chlist r#\"" ++ chars ++ c!"\"#  " ++ bounds2code [] ranges ++ c!")"

/-- src/peg/gcode.rs:85-100 `atom2code` -/
def atom2code : Atom → Str
  | .literal s => c!"lit!(\"" ++ replaceEsc s ++ c!"\")"
  | .error s => c!"error!(\"" ++ replaceEsc s ++ c!"\")"
  | .mtch cs rs => matchRules2code cs rs
  | .dot => c!"dot!()"
  | .eof => c!"eof!()"

/-- decimal rendering of a `usize` (`to_string()`) -/
def natCode (n : Nat) : Str := Nat.toDigits 10 n

mutual
/-- src/peg/gcode.rs:64-73 `expr2code`, with `repeat2code` (119-129) as its `Repeat` arm -/
def expr2code : Expr → Str
  | .simple a => atom2code a
  | .and es => c!"and!(" ++ mexpr2code [] es ++ c!")"
  | .or es => c!"or!(" ++ mexpr2code [] es ++ c!")"
  | .not e => c!"not!(" ++ expr2code e ++ c!")"
  | .rep e min max =>
    c!"rep!(" ++ expr2code e ++ c!", " ++ natCode min
      ++ (match max with
          | some m => c!", " ++ natCode m
          | none => [])
      ++ c!")"
  | .ruleName n => c!"ref_rule!(r#\"" ++ n ++ c!"\"#)"
/-- src/peg/gcode.rs:75-83 `mexpr2code`: the left fold, with its accumulator -/
def mexpr2code (acc : Str) : List Expr → Str
  | [] => acc
  | e :: es =>
    mexpr2code (if acc.isEmpty then expr2code e else acc ++ c!", " ++ expr2code e) es
end

/-- src/peg/gcode.rs:60-62 `rule2code` -/
def rule2code (name : Str) (e : Expr) : Str := c!"r#\"" ++ name ++ c!"\"# => " ++ expr2code e

/-- src/peg/gcode.rs:50-53 closure `add_rule` -/
def addRule (crules rule : Str) : Str :=
  crules ++ c!"\n       " ++ (if crules.isEmpty then c!"  " else c!", ") ++ rule

/-- src/peg/gcode.rs:55-57: the fold of `rust_from_rules` over the entries in some iteration order -/
def rustFromEntries (entries : List (Str × Expr)) : Str :=
  entries.foldl (fun acc ne => addRule acc (rule2code ne.1 ne.2)) []

/-- src/peg/gcode.rs:49-58 `rust_from_rules`. `HashMap::iter` visits the entries in an unspecified
order, so the result is a relation: any permutation of the entries may be visited. -/
def RustFromRules (R : SetOfRules) (code : Str) : Prop :=
  ∃ order, List.Perm order R.entries ∧ code = rustFromEntries order

end DP.Gcode
