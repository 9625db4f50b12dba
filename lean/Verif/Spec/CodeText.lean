/-
Independent specification: the text of the code that `rust_from_rules` writes (src/peg/gcode.rs).
-/
import Verif.Model.Parser
import Mathlib.Data.List.Forall2

namespace DP.Spec

/-- what is written for a character of a literal or of a message: a backslash before `"`, the usual escapes for
ends of lines and tabs, and the others as they are (also backslashes) -/
inductive Written : Char → Str → Prop
  | lf : Written '\n' c!"\\n"
  | cr : Written '\r' c!"\\r"
  | tab : Written '\t' c!"\\t"
  | quote : Written '"' c!"\\\""
  | other {c} : c ∉ ['\n', '\r', '\t', '"'] → Written c [c]

/-- what is written for a text: its characters, one after the other -/
inductive WrittenText : Str → Str → Prop
  | nil : WrittenText [] []
  | cons {c s w ws} : Written c w → WrittenText s ws → WrittenText (c :: s) (w ++ ws)

/-- a range of a class -/
def rangeText (r : Char × Char) : Str := c!", from '" ++ [r.1] ++ c!"', to '" ++ [r.2] ++ c!"' "

/-- the macro call for an expression -/
inductive Emits : Expr → Str → Prop
  | lit {v w} : WrittenText v w → Emits (.simple (.literal v)) (c!"lit!(\"" ++ w ++ c!"\")")
  | error {v w} : WrittenText v w → Emits (.simple (.error v)) (c!"error!(\"" ++ w ++ c!"\")")
  | cls (cs rs) : Emits (.simple (.mtch cs rs)) (c!"ematch!(chlist r#\"" ++ cs ++ c!"\"#  " ++ (rs.map rangeText).flatten ++ c!")")
  | dot : Emits (.simple .dot) c!"dot!()"
  | eof : Emits (.simple .eof) c!"eof!()"
  | and {es ts} : List.Forall₂ Emits es ts → Emits (.and es) (c!"and!(" ++ List.intercalate c!", " ts ++ c!")")
  | or {es ts} : List.Forall₂ Emits es ts → Emits (.or es) (c!"or!(" ++ List.intercalate c!", " ts ++ c!")")
  | not {e t} : Emits e t → Emits (.not e) (c!"not!(" ++ t ++ c!")")
  | unbounded {e t mn} : Emits e t → Emits (.rep e mn none) (c!"rep!(" ++ t ++ c!", " ++ Nat.toDigits 10 mn ++ c!")")
  | bounded {e t mn mx} : Emits e t →
      Emits (.rep e mn (some mx)) (c!"rep!(" ++ t ++ c!", " ++ Nat.toDigits 10 mn ++ c!", " ++ Nat.toDigits 10 mx ++ c!")")
  | ruleName (n) : Emits (.ruleName n) (c!"ref_rule!(r#\"" ++ n ++ c!"\"#)")

end DP.Spec
