/-
How much of the text `parse` looks at. An atom looks at the characters it compares; finding that the text has ended counts as
looking at the place behind it. The calls of atoms are taken from Model/Calls.lean.
-/
import Verif.Model.Calls

namespace DP

/-- src/parser/atom/mod.rs:104-108: a literal is compared up to the first difference -/
def literalLooks : Str → Str → Nat
  | [], _ => 0
  | _ :: _, [] => 1
  | c :: l, d :: r => if c = d then literalLooks l r + 1 else 1

/-- src/parser/atom/mod.rs:103-160; the second argument is what has not been read -/
def atomLooks : Atom → Str → Nat
  | .literal l, r => literalLooks l r
  | .error _, _ => 0
  | .mtch _ _, _ => 1
  | .dot, _ => 1
  | .eof, _ => 1

/-- how far a call looks, from the beginning of the text -/
def callLooks : Expr × Status → Nat
  | (.simple a, st) => st.pos.n + atomLooks a st.itParsing
  | _ => 0

/-- `parse` (src/lib.rs:486-488) returns and has looked at the first `k` characters at most; at the end (513) it looks whether the
text has been consumed. -/
def Sees (s : Str) (R : SetOfRules) (k : Nat) : Prop :=
  ∃ fuel, parseMain R fuel (.init s) ≠ .diverge ∧ (∀ c ∈ callsRuleName R fuel (.init s) c!"main", callLooks c ≤ k) ∧
    ∀ st t, parseMain R fuel (.init s) = .ok (st, t) → st.pos.n + 1 ≤ k

end DP
