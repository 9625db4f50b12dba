/-
Model of src/main.rs and of `print_rules2parse_peg` (src/peg/peg2code.rs): a program that prints.
-/
import Verif.Model.Debug
import Verif.Model.Gcode
import Verif.Model.PegText

namespace DP.Program
open Gcode

/-- a run of a program that comes to an end: what it printed, and whether it panicked -/
structure Ran where
  printed : Str
  panicked : Bool
deriving Repr, DecidableEq

/-- src/peg/peg2code.rs:118-127 `print_rules2parse_peg`: the runs it can have. There can be several, because
`rust_from_rules` visits a hash map; there is none if it does not come to an end. An error is printed, then
`panic!` is called. -/
def printRules2parsePeg (sty : Debug.Style) (r : Ran) : Prop :=
  match rulesFromPeg PegText.textPeg2code with
  | .ok rules => ∃ code, RustFromRules rules code ∧ r = ⟨code ++ c!"\n", false⟩
  | .err e => r = ⟨Debug.displayPeg sty e ++ c!"\n", true⟩
  | .panic => r = ⟨[], true⟩
  | .diverge => False

/-- src/main.rs:4-6 `main` -/
def main (sty : Debug.Style) (r : Ran) : Prop := printRules2parsePeg sty r

/-- src/peg/rules.rs:4-39: the text between the parentheses of `rules!( ... )` -/
def pasted : Str :=
  match PegText.tableSource with
  | [] => c!"\n\n  "
  | x :: xs => c!"\n         " ++ x ++ (xs.map (c!"\n       , " ++ ·)).flatten ++ c!"\n\n  "

end DP.Program
