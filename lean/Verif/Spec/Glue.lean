/-
Independent specification: expressions whose trees differ only in how the text is cut into leaves.
-/
import Verif.Spec.Regroup

namespace DP.Spec

/-- `Glue e e'`: `e` and `e'` accept the same texts with trees that are the same after `compact`, and stop at the same critical
errors. Beyond the laws of `Alike`, a literal may be cut in pieces. -/
inductive Glue : Expr → Expr → Prop
  | alike {e e'} : Alike e e' → Glue e e'
  | symm {e e'} : Glue e e' → Glue e' e
  | trans {e e' e''} : Glue e e' → Glue e' e'' → Glue e e''
  | and_at {e e'} (xs ys) : Glue e e' → Glue (.and (xs ++ e :: ys)) (.and (xs ++ e' :: ys))
  | or_at {e e'} (xs ys) : Glue e e' → Glue (.or (xs ++ e :: ys)) (.or (xs ++ e' :: ys))
  | not {e e'} : Glue e e' → Glue (.not e) (.not e')
  | rep {e e'} (mn mx) : Glue e e' → Glue (.rep e mn mx) (.rep e' mn mx)
  -- 'ab' = 'a' 'b'
  | literal (l l' : Str) :
      Glue (.simple (.literal (l ++ l'))) (.and [.simple (.literal l), .simple (.literal l')])

/-- The same names are defined, with expressions that are the same up to `compact`. -/
def GlueRules (R R' : SetOfRules) : Prop :=
  ∀ n, match R.entries.lookup n, R'.entries.lookup n with
    | some e, some e' => Glue e e'
    | none, none => True
    | _, _ => False

/-- The same answer, except that trees have to be seen after `compact`, and that ordinary errors may differ. -/
def SameCompact : Out Error Node → Out Error Node → Prop
  | .ok t, .ok t' => t.compact = t'.compact
  | .err e, .err e' => (e.priority = .critical ∨ e'.priority = .critical) → e = e'
  | .panic, .panic => True
  | .diverge, .diverge => True
  | _, _ => False

end DP.Spec
