/-
Independent specification: writing the body of a rule in place of its name, or the other way round.
-/
import Verif.Model.Parser

namespace DP.Spec

/-- `Unfolds G G' D S e e'`: `e`, written with the rules `G`, and `e'`, written with the rules `G'`, differ only in that
the one has the body where the other has the name of a rule of `D`. The other names called are in `S`. -/
inductive Unfolds (G G' : Str → Option Expr) (D S : Str → Prop) : Expr → Expr → Prop
  | simple (a) : Unfolds G G' D S (.simple a) (.simple a)
  | call {n} : S n → Unfolds G G' D S (.ruleName n) (.ruleName n)
  | and_nil : Unfolds G G' D S (.and []) (.and [])
  | and_cons {e e' es es'} : Unfolds G G' D S e e' → Unfolds G G' D S (.and es) (.and es') →
      Unfolds G G' D S (.and (e :: es)) (.and (e' :: es'))
  | or_nil : Unfolds G G' D S (.or []) (.or [])
  | or_cons {e e' es es'} : Unfolds G G' D S e e' → Unfolds G G' D S (.or es) (.or es') →
      Unfolds G G' D S (.or (e :: es)) (.or (e' :: es'))
  | not {e e'} : Unfolds G G' D S e e' → Unfolds G G' D S (.not e) (.not e')
  | rep {e e'} (mn mx) : Unfolds G G' D S e e' → Unfolds G G' D S (.rep e mn mx) (.rep e' mn mx)
  | left {n b e'} : D n → G n = some b → Unfolds G G' D S b e' → Unfolds G G' D S (.ruleName n) e'
  | right {n e b'} : D n → G' n = some b' → Unfolds G G' D S e b' → Unfolds G G' D S e (.ruleName n)

/-- Two sets of rules that differ in this way: the rules of `S`, `main` among them, are defined in both. -/
structure UnfoldsRules (R R' : SetOfRules) (D S : Str → Prop) : Prop where
  main : S c!"main"
  rules : ∀ n, S n → match R.get n, R'.get n with
    | some e, some e' => Unfolds R.get R'.get D S e e'
    | none, none => True
    | _, _ => False

/-- The same answer, except that the trees have to be seen with all rules dissolved but those of `keep`. -/
def SameBut (keep : List Str) : Out Error Node → Out Error Node → Prop
  | .ok t, .ok t' => t.passThrough keep = t'.passThrough keep
  | .err e, .err e' => e = e'
  | .panic, .panic => True
  | .diverge, .diverge => True
  | _, _ => False

mutual
/-- `b` in place of every call of `n` -/
def inlExpr (n : Str) (b : Expr) : Expr → Expr
  | .simple a => .simple a
  | .and es => .and (inlExprs n b es)
  | .or es => .or (inlExprs n b es)
  | .not e => .not (inlExpr n b e)
  | .rep e mn mx => .rep (inlExpr n b e) mn mx
  | .ruleName m => if m = n then b else .ruleName m
def inlExprs (n : Str) (b : Expr) : List Expr → List Expr
  | [] => []
  | e :: es => inlExpr n b e :: inlExprs n b es
end

/-- `b` in place of every call of `n`, in all the rules -/
def inlRules (n : Str) (b : Expr) (R : SetOfRules) : SetOfRules :=
  ⟨R.entries.map fun x => (x.1, inlExpr n b x.2)⟩

end DP.Spec
