/-
Independent specification: expressions that need no further rules.
-/
import Verif.Spec.Refs
import Verif.Spec.WellFormed

namespace DP.Spec

/-- every rule that `b` leads to is there -/
def Covered (R : SetOfRules) (b : Expr) : Prop :=
  ∀ n, Refs b n → ∀ m, Relation.ReflTransGen (fun n m => ∃ e, grammar R n = some e ∧ Refs e m) n m →
    ∃ e, grammar R m = some e

end DP.Spec
