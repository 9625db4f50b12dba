/-
Independent specification: what building the nodes costs. The nodes of a part of a sequence and of a round of a repetition are
moved into one vector; an atom that matches writes its value, a rule that matches its name. Nothing is undone for what is given up.
-/
import Verif.Spec.Effort

namespace DP.Spec

/-- `Labour G t s m c`: doing `t` at the text `s` means moving `m` nodes and writing `c` characters. -/
inductive Labour (G : Str → Option Expr) : Task → Str → Nat → Nat → Prop
  | atom_ok {a s r v} : Peg G (.simple a) s (.ok r [.val v]) → Labour G (.one (.simple a)) s 0 v.length
  | atom_no {a s o} : Peg G (.simple a) s o → (∀ r ns, o ≠ .ok r ns) → Labour G (.one (.simple a)) s 0 0
  | and {es s m c} : Labour G (.seq es) s m c → Labour G (.one (.and es)) s m c
  | or {es s m c} : Labour G (.alt es) s m c → Labour G (.one (.or es)) s m c
  | not {e s m c} : Labour G (.one e) s m c → Labour G (.one (.not e)) s m c
  | rep {e mn mx s m c} : Labour G (.loop e mx) s m c → Labour G (.one (.rep e mn mx)) s m c
  | call_ok {n e s r ns m c} : G n = some e → Labour G (.one e) s m c → Peg G e s (.ok r ns) →
      Labour G (.one (.ruleName n)) s m (c + n.length)
  | call_no {n e s o m c} : G n = some e → Labour G (.one e) s m c → Peg G e s o → (∀ r ns, o ≠ .ok r ns) →
      Labour G (.one (.ruleName n)) s m c
  | missing {n s} : G n = none → Labour G (.one (.ruleName n)) s 0 0
  | seq_nil (s) : Labour G (.seq []) s 0 0
  | seq_more {e es s r ns m c m' c'} : Labour G (.one e) s m c → Peg G e s (.ok r ns) → Labour G (.seq es) r m' c' →
      Labour G (.seq (e :: es)) s (m + (ns.length + m')) (c + c')
  | seq_stop {e es s o m c} : Labour G (.one e) s m c → Peg G e s o → (∀ r ns, o ≠ .ok r ns) → Labour G (.seq (e :: es)) s m c
  | alt_nil (s) : Labour G (.alt []) s 0 0
  | alt_more {e es s m c m' c'} : Labour G (.one e) s m c → Peg G e s .fail → Labour G (.alt es) s m' c' →
      Labour G (.alt (e :: es)) s (m + m') (c + c')
  | alt_stop {e es s o m c} : Labour G (.one e) s m c → Peg G e s o → o ≠ .fail → Labour G (.alt (e :: es)) s m c
  | loop_full (e s) : Labour G (.loop e (some 0)) s 0 0
  | loop_more {e mx s r ns m c m' c'} : mx ≠ some 0 → Labour G (.one e) s m c → Peg G e s (.ok r ns) →
      Labour G (.loop e (mx.map (· - 1))) r m' c' → Labour G (.loop e mx) s (m + (ns.length + m')) (c + c')
  | loop_stop {e mx s o m c} : mx ≠ some 0 → Labour G (.one e) s m c → Peg G e s o → (∀ r ns, o ≠ .ok r ns) →
      Labour G (.loop e mx) s m c

end DP.Spec
