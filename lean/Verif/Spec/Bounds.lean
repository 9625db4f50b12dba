/-
Independent specification: what the repetition bounds written in a rule set amount to.

`rep!(e, mn, 0)` has no upper bound, `rep!(e, mn, m)` with `m < mn` is `rep!(e, m, m)`, and every other
repetition has the bounds written. (For rules whose bounds are satisfiable nothing changes:
`effective_of_boundsOK` in Proofs/Bounds.lean.)
-/
import Verif.Spec.Peg

namespace DP.Spec

mutual
/-- the expression with its repetition bounds replaced by the ones that are enforced -/
def effective : Expr → Expr
  | .simple a => .simple a
  | .and es => .and (effectives es)
  | .or es => .or (effectives es)
  | .not e => .not (effective e)
  | .rep e mn none => .rep (effective e) mn none
  | .rep e mn (some 0) => .rep (effective e) mn none
  | .rep e mn (some (m + 1)) => .rep (effective e) (min mn (m + 1)) (some (m + 1))
  | .ruleName n => .ruleName n
def effectives : List Expr → List Expr
  | [] => []
  | e :: es => effective e :: effectives es
end

/-- the rule set with enforced bounds -/
def effectiveRules (R : SetOfRules) : SetOfRules := ⟨R.entries.map (fun ne => (ne.1, effective ne.2))⟩

/-- The PEG grammar that a set of rules denotes, whatever its bounds. -/
def denotes (R : SetOfRules) : Str → Option Expr := fun n => (grammar R n).map effective

end DP.Spec
