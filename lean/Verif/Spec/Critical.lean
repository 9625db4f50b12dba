/-
Independent specification: reaching an `error` atom or an undefined rule outside any negation.
-/
import Verif.Spec.Peg

namespace DP.Spec

/-- `Hits G e s d q`: when `e` is matched against `s`, following the order of evaluation (the earlier
parts of a sequence matched, the earlier alternatives of a choice failed, the earlier copies of a
repetition matched), an `error` atom or a call of an undefined rule is reached, with description `d`, when
the text left is `q`. Parts of the evaluation below a negation do not count. -/
inductive Hits (G : Str → Option Expr) : Expr → Str → Descr → Str → Prop
  | error (m s) : Hits G (.simple (.error m)) s (.custom m) s
  | missing {n s} : G n = none → Hits G (.ruleName n) s (.missingRule n) s
  | call {n e s d q} : G n = some e → Hits G e s d q → Hits G (.ruleName n) s d q
  | seq_here {e es s d q} : Hits G e s d q → Hits G (.and (e :: es)) s d q
  | seq_later {e es s r ns d q} : Peg G e s (.ok r ns) → Hits G (.and es) r d q →
      Hits G (.and (e :: es)) s d q
  | choice_here {e es s d q} : Hits G e s d q → Hits G (.or (e :: es)) s d q
  | choice_later {e es s d q} : Peg G e s .fail → Hits G (.or es) s d q →
      Hits G (.or (e :: es)) s d q
  | rep_here {e mn mx s d q} : mx ≠ some 0 → Hits G e s d q → Hits G (.rep e mn mx) s d q
  | rep_later {e mn mx s r ns d q} : mx ≠ some 0 → Peg G e s (.ok r ns) →
      Hits G (.rep e (mn - 1) (mx.map (· - 1))) r d q → Hits G (.rep e mn mx) s d q

end DP.Spec
