/-
Independent specification: how much work matching is. A matcher without memory looks at each alternative, each
element of a sequence and each round of a repetition anew.
-/
import Verif.Spec.Peg

namespace DP.Spec

/-- a thing to be matched -/
inductive Task where
  | one (e : Expr)
  /-- one after the other, until one does not match -/
  | seq (es : List Expr)
  /-- one after the other, until one does not fail -/
  | alt (es : List Expr)
  /-- again and again, at most so many times -/
  | loop (e : Expr) (mx : Option Nat)

/-- `Effort G t s c d`: doing `t` at the text `s` means matching `c` expressions, `d` of them inside of one another. -/
inductive Effort (G : Str → Option Expr) : Task → Str → Nat → Nat → Prop
  | simple (a s) : Effort G (.one (.simple a)) s 1 1
  | and {es s c d} : Effort G (.seq es) s c d → Effort G (.one (.and es)) s (c + 1) (d + 1)
  | or {es s c d} : Effort G (.alt es) s c d → Effort G (.one (.or es)) s (c + 1) (d + 1)
  | not {e s c d} : Effort G (.one e) s c d → Effort G (.one (.not e)) s (c + 1) (d + 1)
  | rep {e mn mx s c d} : Effort G (.loop e mx) s c d → Effort G (.one (.rep e mn mx)) s (c + 1) (d + 1)
  | call {n e s c d} : G n = some e → Effort G (.one e) s c d → Effort G (.one (.ruleName n)) s (c + 1) (d + 1)
  | missing {n s} : G n = none → Effort G (.one (.ruleName n)) s 1 1
  | seq_nil (s) : Effort G (.seq []) s 0 0
  | seq_more {e es s r ns c d c' d'} : Effort G (.one e) s c d → Peg G e s (.ok r ns) → Effort G (.seq es) r c' d' →
      Effort G (.seq (e :: es)) s (c + c') (max d d')
  | seq_stop {e es s o c d} : Effort G (.one e) s c d → Peg G e s o → (∀ r ns, o ≠ .ok r ns) →
      Effort G (.seq (e :: es)) s c d
  | alt_nil (s) : Effort G (.alt []) s 0 0
  | alt_more {e es s c d c' d'} : Effort G (.one e) s c d → Peg G e s .fail → Effort G (.alt es) s c' d' →
      Effort G (.alt (e :: es)) s (c + c') (max d d')
  | alt_stop {e es s o c d} : Effort G (.one e) s c d → Peg G e s o → o ≠ .fail → Effort G (.alt (e :: es)) s c d
  | loop_full (e s) : Effort G (.loop e (some 0)) s 0 0
  | loop_more {e mx s r ns c d c' d'} : mx ≠ some 0 → Effort G (.one e) s c d → Peg G e s (.ok r ns) →
      Effort G (.loop e (mx.map (· - 1))) r c' d' → Effort G (.loop e mx) s (c + c') (max d d')
  | loop_stop {e mx s o c d} : mx ≠ some 0 → Effort G (.one e) s c d → Peg G e s o → (∀ r ns, o ≠ .ok r ns) →
      Effort G (.loop e mx) s c d

mutual
/-- how deep an expression is nested -/
def height : Expr → Nat
  | .simple _ => 1
  | .and es => heights es + 1
  | .or es => heights es + 1
  | .not e => height e + 1
  | .rep e _ _ => height e + 1
  | .ruleName _ => 1
def heights : List Expr → Nat
  | [] => 0
  | e :: es => max (height e) (heights es)
end

mutual
/-- the longest sequence or choice, or the greatest number of repetitions required -/
def width : Expr → Nat
  | .simple _ => 1
  | .and es => max es.length (widths es)
  | .or es => max es.length (widths es)
  | .not e => max 1 (width e)
  | .rep e _ none => width e
  | .rep e _ (some m) => max m (width e)
  | .ruleName _ => 1
def widths : List Expr → Nat
  | [] => 0
  | e :: es => max (width e) (widths es)
end

end DP.Spec
