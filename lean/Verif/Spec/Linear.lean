/-
Independent specification: rules without useless parts.
-/
import Verif.Spec.ContextFree

namespace DP.Spec

/-- every part of every rule derives some text -/
def Productive (G : Str → Option Expr) : Prop :=
  ∀ n e, G n = some e → ∀ x, Sub x e → ∃ u ns, Gen G x u ns

end DP.Spec
