/-
Independent specification: well-formed grammars (no left recursion, no empty unbounded repetition).
-/
import Verif.Spec.Bounds
import Mathlib.Logic.Relation

namespace DP.Spec

/-- `CanEmpty G e`: `e` may be able to match without consuming anything (syntactic over-approximation). -/
inductive CanEmpty (G : Str → Option Expr) : Expr → Prop
  | lit : CanEmpty G (.simple (.literal []))
  | eof : CanEmpty G (.simple .eof)
  | and {es} : (∀ e ∈ es, CanEmpty G e) → CanEmpty G (.and es)
  | or {es e} : e ∈ es → CanEmpty G e → CanEmpty G (.or es)
  | not (e) : CanEmpty G (.not e)
  | rep_zero (e mx) : CanEmpty G (.rep e 0 mx)
  | rep_max_zero (e mn) : CanEmpty G (.rep e mn (some 0))
  | rep {e mn mx} : CanEmpty G e → CanEmpty G (.rep e mn mx)
  | call {n e} : G n = some e → CanEmpty G e → CanEmpty G (.ruleName n)

/-- `LeftCalls G e n`: matching `e` may call the rule `n` before consuming anything. -/
inductive LeftCalls (G : Str → Option Expr) : Expr → Str → Prop
  | here (n) : LeftCalls G (.ruleName n) n
  | and {pre e post n} : (∀ x ∈ pre, CanEmpty G x) → LeftCalls G e n →
      LeftCalls G (.and (pre ++ e :: post)) n
  | or {es e n} : e ∈ es → LeftCalls G e n → LeftCalls G (.or es) n
  | not {e n} : LeftCalls G e n → LeftCalls G (.not e) n
  | rep {e mn mx n} : LeftCalls G e n → LeftCalls G (.rep e mn mx) n

/-- Rule `n` may call rule `m` before consuming anything. -/
def LeftStep (G : Str → Option Expr) (n m : Str) : Prop := ∃ e, G n = some e ∧ LeftCalls G e m

/-- `Sub e' e`: `e'` is `e` or occurs in it. -/
inductive Sub : Expr → Expr → Prop
  | refl (e) : Sub e e
  | and {x es e} : e ∈ es → Sub x e → Sub x (.and es)
  | or {x es e} : e ∈ es → Sub x e → Sub x (.or es)
  | not {x e} : Sub x e → Sub x (.not e)
  | rep {x e mn mx} : Sub x e → Sub x (.rep e mn mx)

/-- No rule of `G` can call itself, directly or through others, without consuming something, and no
unbounded repetition has a body that can match without consuming. -/
structure WellFormed (G : Str → Option Expr) : Prop where
  no_left_recursion : ∀ n, ¬ Relation.TransGen (LeftStep G) n n
  no_empty_repetition : ∀ n e b mn, G n = some e → Sub (.rep b mn none) e → ¬ CanEmpty G b

/-- `Visits G e s x t`: matching `e` against `s` involves matching `x` against `t`. -/
inductive Visits (G : Str → Option Expr) : Expr → Str → Expr → Str → Prop
  | refl (e s) : Visits G e s e s
  | body {n e s x t} : G n = some e → Visits G e s x t → Visits G (.ruleName n) s x t
  | and_head {e es s x t} : Visits G e s x t → Visits G (.and (e :: es)) s x t
  | and_tail {e es s r ns x t} : Peg G e s (.ok r ns) → Visits G (.and es) r x t →
      Visits G (.and (e :: es)) s x t
  | or_head {e es s x t} : Visits G e s x t → Visits G (.or (e :: es)) s x t
  | or_tail {e es s x t} : Peg G e s .fail → Visits G (.or es) s x t → Visits G (.or (e :: es)) s x t
  | not {e s x t} : Visits G e s x t → Visits G (.not e) s x t
  | rep_head {e mn mx s x t} : mx ≠ some 0 → Visits G e s x t → Visits G (.rep e mn mx) s x t
  | rep_tail {e mn mx s r ns x t} : mx ≠ some 0 → Peg G e s (.ok r ns) →
      Visits G (.rep e (mn - 1) (mx.map (· - 1))) r x t → Visits G (.rep e mn mx) s x t

end DP.Spec
