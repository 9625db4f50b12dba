/-
Independent specification: the lines of `{:#?}`.
-/
import Verif.Model.Debug

namespace DP.Spec.Lines
open Debug

/-- one level deeper -/
def deeper (ls : List Str) : List Str := ls.map (c!"    " ++ ·)

/-- `a` in front of the first line -/
def before (a : Str) : List Str → List Str
  | [] => [a]
  | l :: ls => (a ++ l) :: ls

/-- `b` after the last line -/
def after (b : Str) : List Str → List Str
  | [] => [b]
  | [l] => [l ++ b]
  | l :: ls => l :: after b ls

/-- the last line of the first and the first line of the second become one -/
def glue : List Str → List Str → List Str
  | [], ms => ms
  | [l], ms => before l ms
  | l :: ls, ms => l :: glue ls ms

def openText : Kind → Str
  | .tuple => c!"("
  | .list => c!"["
  | .map => c!"{"
  | .struct => c!" {"

def closeText : Kind → Str
  | .tuple => c!")"
  | .list => c!"]"
  | .map => c!"}"
  | .struct => c!"}"

mutual
/-- The lines of a value: a value without entries is on one line, and so are texts, characters and numbers;
otherwise the entries stand between the line that opens and the line that closes, one level deeper, and with
a comma after each (in old versions, not after the last). -/
def lines (sty : Style) : Dbg → List Str
  | .str s => [debug sty (.str s)]
  | .chr c => [debug sty (.chr c)]
  | .num n => [debug sty (.num n)]
  | .group k name [] => [debug sty (.group k name [])]
  | .group k name (e :: es) =>
    (name ++ openText k) :: deeper (linesOfEntries sty (e :: es)) ++ [closeText k]
def linesOfEntries (sty : Style) : List Entry → List Str
  | [] => []
  | e :: es => (if es.isEmpty && !sty.comma then linesOfEntry sty e else after c!"," (linesOfEntry sty e)) ++
      linesOfEntries sty es
def linesOfEntry (sty : Style) : Entry → List Str
  | .plain d => lines sty d
  | .field n d => before (n ++ c!": ") (lines sty d)
  | .pair k d => glue (after c!": " (lines sty k)) (lines sty d)
end

/-- lines as a text -/
def text : List Str → Str
  | [] => []
  | [l] => l
  | l :: ls => l ++ '\n' :: text ls

/-- What stands for a character between double quotes. -/
inductive Escape (sty : Style) : Char → Str → Prop
  | tab : Escape sty '\t' c!"\\t"
  | cr : Escape sty '\r' c!"\\r"
  | lf : Escape sty '\n' c!"\\n"
  | backslash : Escape sty '\\' c!"\\\\"
  | quote : Escape sty '"' c!"\\\""
  | single : sty.bothQuotes = false → Escape sty '\'' c!"'"
  | single_escaped : sty.bothQuotes = true → Escape sty '\'' c!"\\'"
  | nul : sty.nul = true → Escape sty '\x00' c!"\\0"
  | nul_code : sty.nul = false → Escape sty '\x00' c!"\\u{0}"
  /-- the other control characters -/
  | control (c) : (0 < c.toNat ∧ c.toNat < 32 ∨ c.toNat = 127) → c ≠ '\t' → c ≠ '\r' → c ≠ '\n' →
      Escape sty c (c!"\\u{" ++ Nat.toDigits 16 c.toNat ++ c!"}")
  | printable (c) : 32 ≤ c.toNat → c.toNat < 127 → c ≠ '\\' → c ≠ '"' → c ≠ '\'' → Escape sty c [c]
  | beyond (c) : 128 ≤ c.toNat → sty.raw c = true → Escape sty c [c]
  | beyond_code (c) : 128 ≤ c.toNat → sty.raw c = false →
      Escape sty c (c!"\\u{" ++ Nat.toDigits 16 c.toNat ++ c!"}")

/-- the characters of a text, each as it is shown -/
inductive Escapes (sty : Style) : Str → Str → Prop
  | nil : Escapes sty [] []
  | cons {c e s t} : Escape sty c e → Escapes sty s t → Escapes sty (c :: s) (e ++ t)

end DP.Spec.Lines
