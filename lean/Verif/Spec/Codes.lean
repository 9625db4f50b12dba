/-
Independent specification: a text cut into the words of a list.
-/
import Verif.Model.Basic

namespace DP.Spec

/-- `w` is the first of the words that begins the text -/
def FirstOf (ws : List Str) (s w : Str) : Prop := w <+: s ∧ ∃ a b, ws = a ++ w :: b ∧ ∀ v ∈ a, ¬ v <+: s

/-- the text cut into words: each time the first word that begins what is left -/
inductive Cut (ws : List Str) : Str → List Str → Prop
  | nil : Cut ws [] []
  | cons {w r ms} : FirstOf ws (w ++ r) w → Cut ws r ms → Cut ws (w ++ r) (w :: ms)

end DP.Spec
