/-
Independent specification: how many unbounded repetitions are inside of one another, looking into the rules that are called.
-/
import Verif.Spec.Peg

namespace DP.Spec

/-- `Nested G e d`: in `e`, with the bodies of the rules in place of their names, at most `d` unbounded repetitions are inside of
one another. (There is no such `d` if a rule that `e` calls is recursive.) -/
inductive Nested (G : Str → Option Expr) : Expr → Nat → Prop
  | simple (a d) : Nested G (.simple a) d
  | and {es d} : (∀ e ∈ es, Nested G e d) → Nested G (.and es) d
  | or {es d} : (∀ e ∈ es, Nested G e d) → Nested G (.or es) d
  | not {e d} : Nested G e d → Nested G (.not e) d
  | bounded {e d} (mn m) : Nested G e d → Nested G (.rep e mn (some m)) d
  | unbounded {e d} (mn) : Nested G e d → Nested G (.rep e mn none) (d + 1)
  | call {n e d} : G n = some e → Nested G e d → Nested G (.ruleName n) d
  | missing {n} (d) : G n = none → Nested G (.ruleName n) d

end DP.Spec
