/-
Independent specification: what the Rust expressions emitted by `rust_from_rules` denote. The lexical
rules are those of the Rust reference (string, raw string, character and integer literals); the macros
are those of src/lib.rs:138-444.
-/
import Verif.Spec.Peg

namespace DP.Spec

/-- value of a hexadecimal digit -/
def hexVal (c : Char) : Option Nat :=
  if '0' ≤ c ∧ c ≤ '9' then some (c.toNat - 48)
  else if 'a' ≤ c ∧ c ≤ 'f' then some (c.toNat - 87)
  else if 'A' ≤ c ∧ c ≤ 'F' then some (c.toNat - 55)
  else none

/-- value of a sequence of hexadecimal digits, most significant first -/
inductive HexNum : Str → Nat → Prop
  | nil : HexNum [] 0
  | snoc {ds n c d} : HexNum ds n → hexVal c = some d → HexNum (ds ++ [c]) (16 * n + d)

/-- `RustStr b v`: the string literal `"b"` denotes the text `v`. -/
inductive RustStr : Str → Str → Prop
  | nil : RustStr [] []
  | plain {c b v} : c ≠ '"' → c ≠ '\\' → c ≠ '\r' → RustStr b v → RustStr (c :: b) (c :: v)
  | n {b v} : RustStr b v → RustStr ('\\' :: 'n' :: b) ('\n' :: v)
  | r {b v} : RustStr b v → RustStr ('\\' :: 'r' :: b) ('\r' :: v)
  | t {b v} : RustStr b v → RustStr ('\\' :: 't' :: b) ('\t' :: v)
  | bs {b v} : RustStr b v → RustStr ('\\' :: '\\' :: b) ('\\' :: v)
  | nul {b v} : RustStr b v → RustStr ('\\' :: '0' :: b) (Char.ofNat 0 :: v)
  | sq {b v} : RustStr b v → RustStr ('\\' :: '\'' :: b) ('\'' :: v)
  | dq {b v} : RustStr b v → RustStr ('\\' :: '"' :: b) ('"' :: v)
  | hex {h l b v n c} : HexNum [h, l] n → n < 128 → c.toNat = n → RustStr b v →
      RustStr ('\\' :: 'x' :: h :: l :: b) (c :: v)
  | uni {ds b v n c} : HexNum ds n → 1 ≤ ds.length → ds.length ≤ 6 → c.toNat = n → RustStr b v →
      RustStr ('\\' :: 'u' :: '{' :: ds ++ '}' :: b) (c :: v)
  | cont {w b v} : (∀ c ∈ w, c = ' ' ∨ c = '\t' ∨ c = '\n') →
      (∀ c ∈ b.head?, c ≠ ' ' ∧ c ≠ '\t' ∧ c ≠ '\n') → RustStr b v → RustStr ('\\' :: '\n' :: w ++ b) v

/-- `r#"v"#` is a raw string literal denoting `v` -/
def RawStr (v : Str) : Prop := ¬ ['"', '#'] <:+: v ∧ '\r' ∉ v

/-- `'c'` is a character literal denoting `c` -/
def CharLit (c : Char) : Prop := c ≠ '\'' ∧ c ≠ '\\' ∧ c ≠ '\n' ∧ c ≠ '\r' ∧ c ≠ '\t'

/-- `ds` is a decimal literal denoting `n` -/
def DecLit (ds : Str) (n : Nat) : Prop :=
  ds ≠ [] ∧ (∀ c ∈ ds, '0' ≤ c ∧ c ≤ '9') ∧ ds.foldl (fun m c => 10 * m + (c.toNat - 48)) 0 = n

/-- blanks between tokens -/
def Blank (w : Str) : Prop := ∀ c ∈ w, c = ' ' ∨ c = '\n'

instance (w : Str) : Decidable (Blank w) := by unfold Blank; infer_instance

/-- one range of `ematch!`: `from 'a', to 'b'` -/
inductive RustRange : Str → Char × Char → Prop
  | mk {w1 w2 w3 w4 w5 a b} : Blank w1 → Blank w2 → Blank w3 → Blank w4 → Blank w5 → CharLit a → CharLit b →
      RustRange (w1 ++ c!"from " ++ w2 ++ ['\'', a, '\''] ++ c!"," ++ w3 ++ c!"to " ++ w4 ++ ['\'', b, '\''] ++ w5)
        (a, b)

/-- the ranges of `ematch!`, separated by commas; at least one -/
inductive RustRanges : Str → List (Char × Char) → Prop
  | one {s r} : RustRange s r → RustRanges s [r]
  | cons {s r t rs} : RustRange s r → RustRanges t rs → RustRanges (s ++ c!"," ++ t) (r :: rs)

mutual
/-- `RustExpr s e`: the Rust expression `s`, written with the macros of lib.rs, evaluates to `e`. -/
inductive RustExpr : Str → Expr → Prop
  | lit {b v} : RustStr b v → RustExpr (c!"lit!(\"" ++ b ++ c!"\")") (.simple (.literal v))
  | error {b v} : RustStr b v → RustExpr (c!"error!(\"" ++ b ++ c!"\")") (.simple (.error v))
  | dot : RustExpr c!"dot!()" (.simple .dot)
  | ematch {cs w s rs} : RawStr cs → Blank w → RustRanges s rs →
      RustExpr (c!"ematch!(chlist r#\"" ++ cs ++ c!"\"#" ++ w ++ c!"," ++ s ++ c!")") (.simple (.mtch cs rs))
  | and {s es} : RustArgs s es → RustExpr (c!"and!(" ++ s ++ c!")") (.and es)
  | or {s es} : RustArgs s es → RustExpr (c!"or!(" ++ s ++ c!")") (.or es)
  | not {s e} : RustExpr s e → RustExpr (c!"not!(" ++ s ++ c!")") (.not e)
  | rep {s e w ds n} : RustExpr s e → Blank w → DecLit ds n →
      RustExpr (c!"rep!(" ++ s ++ c!"," ++ w ++ ds ++ c!")") (.rep e n none)
  | repMax {s e w ds n w' ds' m} : RustExpr s e → Blank w → DecLit ds n → Blank w' → DecLit ds' m →
      RustExpr (c!"rep!(" ++ s ++ c!"," ++ w ++ ds ++ c!"," ++ w' ++ ds' ++ c!")") (.rep e n (some m))
  | ref {n} : RawStr n → RustExpr (c!"ref_rule!(r#\"" ++ n ++ c!"\"#)") (.ruleName n)
/-- arguments separated by commas; no trailing comma -/
inductive RustArgs : Str → List Expr → Prop
  | nil : RustArgs [] []
  | one {s e} : RustExpr s e → RustArgs s [e]
  | cons {s e w t es} : RustExpr s e → Blank w → RustArgs t es → es ≠ [] →
      RustArgs (s ++ c!"," ++ w ++ t) (e :: es)
end

/-- one `name => expression` argument of `rules!` -/
def RustEntry (s : Str) (ne : Str × Expr) : Prop :=
  ∃ w1 w2 w3 code, Blank w1 ∧ Blank w2 ∧ Blank w3 ∧ RawStr ne.1 ∧ RustExpr code ne.2 ∧
    s = w1 ++ c!"r#\"" ++ ne.1 ++ c!"\"#" ++ w2 ++ c!"=>" ++ w3 ++ code

/-- the arguments of `rules!`, separated by commas; no trailing comma -/
inductive RustRules : Str → List (Str × Expr) → Prop
  | nil {w} : Blank w → RustRules w []
  | one {s w ne} : RustEntry s ne → Blank w → RustRules (s ++ w) [ne]
  | cons {s w ne t l} : RustEntry s ne → Blank w → RustRules t l → l ≠ [] →
      RustRules (s ++ w ++ c!"," ++ t) (ne :: l)

/-- The expressions for which `rust_from_rules` emits an expression that Rust accepts. -/
inductive Emittable : Expr → Prop
  | literal {l} : '\\' ∉ l → Emittable (.simple (.literal l))
  | error {m} : '\\' ∉ m → Emittable (.simple (.error m))
  | dot : Emittable (.simple .dot)
  | cls {cs rs} : RawStr cs → rs ≠ [] → (∀ r ∈ rs, CharLit r.1 ∧ CharLit r.2) → Emittable (.simple (.mtch cs rs))
  | ref {n} : RawStr n → Emittable (.ruleName n)
  | and {es} : (∀ e ∈ es, Emittable e) → Emittable (.and es)
  | or {es} : (∀ e ∈ es, Emittable e) → Emittable (.or es)
  | not {e} : Emittable e → Emittable (.not e)
  | rep {e mn mx} : Emittable e → Emittable (.rep e mn mx)

end DP.Spec
