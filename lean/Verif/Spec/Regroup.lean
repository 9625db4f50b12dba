/-
Independent specification: ways of rewriting an expression that cannot be told apart.
-/
import Verif.Model.Parser

namespace DP.Spec

/-- `Same e e'`: the expression `e` may be written `e'`. -/
inductive Same : Expr → Expr → Prop
  | refl (e) : Same e e
  | symm {e e'} : Same e e' → Same e' e
  | trans {e e' e''} : Same e e' → Same e' e'' → Same e e''
  -- inside any expression
  | and_at {e e'} (xs ys) : Same e e' → Same (.and (xs ++ e :: ys)) (.and (xs ++ e' :: ys))
  | or_at {e e'} (xs ys) : Same e e' → Same (.or (xs ++ e :: ys)) (.or (xs ++ e' :: ys))
  | not {e e'} : Same e e' → Same (.not e) (.not e')
  | rep {e e'} (mn mx) : Same e e' → Same (.rep e mn mx) (.rep e' mn mx)
  -- parentheses: a (b c) d = a b c d, and a / (b / c) / d = a / b / c / d
  | and_nest (xs ys zs) : Same (.and (xs ++ .and ys :: zs)) (.and (xs ++ ys ++ zs))
  | or_nest (xs y ys zs) : Same (.or (xs ++ .or (y :: ys) :: zs)) (.or (xs ++ (y :: ys) ++ zs))
  | and_single (e) : Same (.and [e]) e
  | or_single (e) : Same (.or [e]) e
  -- an alternative given twice in a row: a / a = a
  | or_twice (e) : Same (.or [e, e]) e
  -- common beginnings: a b / a c = a (b / c)
  | factor (e xs ys) : Same (.or [.and (e :: xs), .and (e :: ys)]) (.and [e, .or [.and xs, .and ys]])
  -- what comes after an alternative that always matches, or after an error, does not matter
  | or_optional (e mx ys) : Same (.or (.rep e 0 mx :: ys)) (.rep e 0 mx)
  | or_empty (ys) : Same (.or (.and [] :: ys)) (.and [])
  | or_error (m ys) : Same (.or (.simple (.error m) :: ys)) (.simple (.error m))
  | and_error (m ys) : Same (.and (.simple (.error m) :: ys)) (.simple (.error m))
  -- repetitions: a+ = a a*, and so on for other bounds
  | rep_unroll (e mn) : Same (.rep e (mn + 1) none) (.and [e, .rep e mn none])
  | rep_unroll_max (e mn m) :
      Same (.rep e (mn + 1) (some (m + 2))) (.and [e, .rep e mn (some (m + 1))])
  | rep_once (e mn) : Same (.rep e (mn + 1) (some 1)) e
  | rep_zero (e mn) : Same (.rep e mn (some 0)) (.rep e mn none)
  -- repetitions of repetitions and after repetitions: (a+)* = a*, (a*)? = a*, (a+)? = a*, a* a* = a*, a* a? = a*, a? a* = a*
  | rep_star (e) : Same (.rep (.rep e 1 none) 0 none) (.rep e 0 none)
  | rep_option (e mx) : Same (.rep (.rep e 0 mx) 0 (some 1)) (.rep e 0 mx)
  | rep_option_one (e mx) : Same (.rep (.rep e 1 mx) 0 (some 1)) (.rep e 0 mx)
  | rep_again (e mn mx) : Same (.and [.rep e mn none, .rep e 0 mx]) (.rep e mn none)
  | option_rep (e) : Same (.and [.rep e 0 (some 1), .rep e 0 none]) (.rep e 0 none)
  -- a condition that was just checked: !a !a = !a, and a / !a b = a / b
  | not_twice (e) : Same (.and [.not e, .not e]) (.not e)
  | or_else (e xs) : Same (.or [e, .and (.not e :: xs)]) (.or [e, .and xs])

/-- The same names are defined, with expressions that are written differently at most. -/
def SameRules (R R' : SetOfRules) : Prop :=
  ∀ n, match R.entries.lookup n, R'.entries.lookup n with
    | some e, some e' => Same e e'
    | none, none => True
    | _, _ => False

/-- `Alike e e'`: `e` and `e'` accept the same texts with the same trees, and stop at the same critical
errors; the ordinary errors reported for other texts may differ. -/
inductive Alike : Expr → Expr → Prop
  | same {e e'} : Same e e' → Alike e e'
  | symm {e e'} : Alike e e' → Alike e' e
  | trans {e e' e''} : Alike e e' → Alike e' e'' → Alike e e''
  | and_at {e e'} (xs ys) : Alike e e' → Alike (.and (xs ++ e :: ys)) (.and (xs ++ e' :: ys))
  | or_at {e e'} (xs ys) : Alike e e' → Alike (.or (xs ++ e :: ys)) (.or (xs ++ e' :: ys))
  | not {e e'} : Alike e e' → Alike (.not e) (.not e')
  | rep {e e'} (mn mx) : Alike e e' → Alike (.rep e mn mx) (.rep e' mn mx)
  -- a? = a / (nothing), a* = a a* / (nothing)
  | optional (e) : Alike (.rep e 0 (some 1)) (.or [e, .and []])
  | star (e) : Alike (.rep e 0 none) (.or [.and [e, .rep e 0 none], .and []])
  -- !!!a = !a
  | not_not_not (e) : Alike (.not (.not (.not e))) (.not e)
  -- an alternative that cannot match because of an earlier one may be left out:
  -- the same one, one that begins with it, a literal that begins with an earlier literal
  | or_again (xs e ys zs) : Alike (.or (xs ++ e :: ys ++ e :: zs)) (.or (xs ++ e :: ys ++ zs))
  | or_shadowed (xs e ys ws zs) :
      Alike (.or (xs ++ e :: ys ++ .and (e :: ws) :: zs)) (.or (xs ++ e :: ys ++ zs))
  | or_longer (xs l ys l' zs) :
      Alike (.or (xs ++ .simple (.literal l) :: ys ++ .simple (.literal (l ++ l')) :: zs))
        (.or (xs ++ .simple (.literal l) :: ys ++ zs))
  -- an alternative without alternatives
  | or_nothing (xs ys) : Alike (.or (xs ++ .or [] :: ys)) (.or (xs ++ ys))
  -- classes are choices
  | class_char (c cs rs) :
      Alike (.simple (.mtch (c :: cs) rs)) (.or [.simple (.literal [c]), .simple (.mtch cs rs)])
  | class_range (cs r rs) :
      Alike (.simple (.mtch cs (r :: rs))) (.or [.simple (.mtch [] [r]), .simple (.mtch cs rs)])
  | class_none : Alike (.simple (.mtch [] [])) (.or [])

/-- The same names are defined, with expressions that are alike. -/
def AlikeRules (R R' : SetOfRules) : Prop :=
  ∀ n, match R.entries.lookup n, R'.entries.lookup n with
    | some e, some e' => Alike e e'
    | none, none => True
    | _, _ => False

end DP.Spec
