/-
Independent specification: recursion in last position only.
-/
import Verif.Spec.Refs

namespace DP.Spec

/-- `TailCalls same low e`: `e` calls rules of `same` only at the end of a sequence, where nothing more is to be matched after
them, and otherwise only rules of `low`. What is tried when the call fails does not matter, nor what `!` does with it. -/
inductive TailCalls (same low : Str → Prop) : Expr → Prop
  | low {e} : (∀ m, Refs e m → low m) → TailCalls same low e
  | call {n} : same n → TailCalls same low (.ruleName n)
  | last {e} : TailCalls same low e → TailCalls same low (.and [e])
  | next {e es} : (∀ m, Refs e m → low m) → TailCalls same low (.and es) → TailCalls same low (.and (e :: es))
  | or {es} : (∀ e ∈ es, TailCalls same low e) → TailCalls same low (.or es)
  | not {e} : TailCalls same low e → TailCalls same low (.not e)
  | opt {e} : TailCalls same low e → TailCalls same low (.rep e 0 (some 1))

/-- The rules that `main` leads to can be given levels such that a rule calls rules of its own level only at the end, and
otherwise only rules of lower levels. -/
def TailRecursive (G : Str → Option Expr) : Prop := ∃ level : Str → Nat, ∀ n e, Reach G n → G n = some e →
  TailCalls (fun m => level m = level n) (fun m => level m < level n) e

end DP.Spec
