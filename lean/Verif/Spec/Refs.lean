/-
Independent specification: references between rules.
-/
import Verif.Spec.Peg

namespace DP.Spec

/-- `Refs e n`: the expression `e` contains a reference to the rule name `n`. -/
inductive Refs : Expr → Str → Prop
  | here (n) : Refs (.ruleName n) n
  | and {es e n} : e ∈ es → Refs e n → Refs (.and es) n
  | or {es e n} : e ∈ es → Refs e n → Refs (.or es) n
  | not {e n} : Refs e n → Refs (.not e) n
  | rep {e mn mx n} : Refs e n → Refs (.rep e mn mx) n

/-- `Reach G n`: the rule name `n` can be reached from `main` by following references. -/
inductive Reach (G : Str → Option Expr) : Str → Prop
  | main : Reach G c!"main"
  | step {n e m} : Reach G n → G n = some e → Refs e m → Reach G m

/-- Every reference occurring in a rule of `R` is defined in `R`, and so is `main`. -/
def ClosedRules (R : SetOfRules) : Prop :=
  (∃ e, grammar R c!"main" = some e) ∧
  ∀ n e m, grammar R n = some e → Refs e m → ∃ e', grammar R m = some e'

end DP.Spec
