/-
Independent specification: coordinates of a point of a text, ASCII texts.
-/
import Verif.Model.Parser

namespace DP.Spec

/-- every character is below U+0080 -/
def Ascii (s : Str) : Prop := ∀ c ∈ s, c.toNat < 128

instance (s : Str) : Decidable (Ascii s) := inferInstanceAs (Decidable (∀ c ∈ s, c.toNat < 128))

/-- the part of a text after its last '\n' (the whole text if there is none) -/
def lastLine (pre : Str) : Str := (pre.reverse.takeWhile (· ≠ '\n')).reverse

/-- the part of a text after its last '\n' or '\r' -/
def sinceBreak (pre : Str) : Str := (pre.reverse.takeWhile (fun c => c ≠ '\n' ∧ c ≠ '\r')).reverse

/-- The true coordinates of the point reached after reading `pre`. -/
structure CoordsOf (pre : Str) (p : Pos) : Prop where
  n : p.n = pre.length
  row : p.row = pre.count '\n'
  col : p.col = (sinceBreak pre).length
  startLine : p.startLine = pre.length - (lastLine pre).length

end DP.Spec
