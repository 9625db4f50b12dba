/-
Independent specification: what Rust reads in the code generated for texts with backslashes.
-/
import Verif.Spec.RustCode

namespace DP.Spec

/-- `Unescaped v w`: the text `v`, in which a backslash starts an escape of Rust, stands for `w`. A line feed, carriage
return or tab after a backslash has itself been written as an escape, so it leaves the backslash and a letter. -/
inductive Unescaped : Str → Str → Prop
  | nil : Unescaped [] []
  | plain {c v w} : c ≠ '\\' → Unescaped v w → Unescaped (c :: v) (c :: w)
  | bs {v w} : Unescaped v w → Unescaped ('\\' :: '\\' :: v) ('\\' :: w)
  | n {v w} : Unescaped v w → Unescaped ('\\' :: 'n' :: v) ('\n' :: w)
  | r {v w} : Unescaped v w → Unescaped ('\\' :: 'r' :: v) ('\r' :: w)
  | t {v w} : Unescaped v w → Unescaped ('\\' :: 't' :: v) ('\t' :: w)
  | nul {v w} : Unescaped v w → Unescaped ('\\' :: '0' :: v) (Char.ofNat 0 :: w)
  | sq {v w} : Unescaped v w → Unescaped ('\\' :: '\'' :: v) ('\'' :: w)
  | lf {v w} : Unescaped v w → Unescaped ('\\' :: '\n' :: v) ('\\' :: 'n' :: w)
  | cr {v w} : Unescaped v w → Unescaped ('\\' :: '\r' :: v) ('\\' :: 'r' :: w)
  | tab {v w} : Unescaped v w → Unescaped ('\\' :: '\t' :: v) ('\\' :: 't' :: w)
  | hex {h l v w n c} : HexNum [h, l] n → n < 128 → c.toNat = n → Unescaped v w →
      Unescaped ('\\' :: 'x' :: h :: l :: v) (c :: w)
  | uni {ds v w n c} : HexNum ds n → 1 ≤ ds.length → ds.length ≤ 6 → c.toNat = n → Unescaped v w →
      Unescaped ('\\' :: 'u' :: '{' :: ds ++ '}' :: v) (c :: w)

mutual
/-- `CodeOf e e'`: the expression `e`, with the escapes in its literals and messages resolved, is `e'`; its classes and names
are ones that can be emitted. -/
inductive CodeOf : Expr → Expr → Prop
  | literal {v w} : Unescaped v w → CodeOf (.simple (.literal v)) (.simple (.literal w))
  | error {v w} : Unescaped v w → CodeOf (.simple (.error v)) (.simple (.error w))
  | dot : CodeOf (.simple .dot) (.simple .dot)
  | cls {cs rs} : RawStr cs → rs ≠ [] → (∀ r ∈ rs, CharLit r.1 ∧ CharLit r.2) →
      CodeOf (.simple (.mtch cs rs)) (.simple (.mtch cs rs))
  | ref {n} : RawStr n → CodeOf (.ruleName n) (.ruleName n)
  | and {es es'} : CodeOfs es es' → CodeOf (.and es) (.and es')
  | or {es es'} : CodeOfs es es' → CodeOf (.or es) (.or es')
  | not {e e'} : CodeOf e e' → CodeOf (.not e) (.not e')
  | rep {e e' mn mx} : CodeOf e e' → CodeOf (.rep e mn mx) (.rep e' mn mx)
inductive CodeOfs : List Expr → List Expr → Prop
  | nil : CodeOfs [] []
  | cons {e e' es es'} : CodeOf e e' → CodeOfs es es' → CodeOfs (e :: es) (e' :: es')
end

/-- the same rules in the same order, each with its code -/
inductive CodeOfRules : List (Str × Expr) → List (Str × Expr) → Prop
  | nil : CodeOfRules [] []
  | cons {n e e' l l'} : RawStr n → CodeOf e e' → CodeOfRules l l' → CodeOfRules ((n, e) :: l) ((n, e') :: l')

end DP.Spec
