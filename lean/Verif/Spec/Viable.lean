/-
Independent specification: rules whose parts all derive some text of certain characters.
-/
import Verif.Spec.ContextFree

namespace DP.Spec

/-- every part of every rule derives some text of characters of the kind `A` -/
def ProductiveIn (A : Char → Prop) (G : Str → Option Expr) : Prop :=
  ∀ n e, G n = some e → ∀ x, Sub x e → ∃ u ns, Gen G x u ns ∧ ∀ c ∈ u, A c

end DP.Spec
