/-
Independent specification: the numbers written in a rule set.
-/
import Verif.Spec.Peg

namespace DP.Spec

/-- `Maximum e m`: some repetition in `e` has the maximum `m`. -/
inductive Maximum : Expr → Nat → Prop
  | here {e mn} (m) : Maximum (.rep e mn (some m)) m
  | and {es e m} : e ∈ es → Maximum e m → Maximum (.and es) m
  | or {es e m} : e ∈ es → Maximum e m → Maximum (.or es) m
  | not {e m} : Maximum e m → Maximum (.not e) m
  | rep {e mn mx m} : Maximum e m → Maximum (.rep e mn mx) m

/-- Every maximum of the rules is less than `size` (in Rust: it is a `usize`). -/
def FitsIn (size : Nat) (R : SetOfRules) : Prop :=
  ∀ n e m, grammar R n = some e → Maximum e m → m < size

end DP.Spec
