/-
Independent specification: which numbers of nodes there are while a text is matched. A sequence or a repetition keeps the nodes
of what has matched while it goes on; what is given up is gone.
-/
import Verif.Spec.Effort

namespace DP.Spec

mutual
/-- the nodes of a tree, with its root -/
def countTree : Node → Nat
  | .val _ => 1
  | .eof => 1
  | .rule _ ns => countTrees ns + 1
def countTrees : List Node → Nat
  | [] => 0
  | n :: ns => countTree n + countTrees ns
end

/-- `Pending G t s k`: at some moment while `t` is done at the text `s`, it has `k` nodes. -/
inductive Pending (G : Str → Option Expr) : Task → Str → Nat → Prop
  | start (t s) : Pending G t s 0
  | atom {a s r ns} : Peg G (.simple a) s (.ok r ns) → Pending G (.one (.simple a)) s (countTrees ns)
  | and {es s k} : Pending G (.seq es) s k → Pending G (.one (.and es)) s k
  | or {es s k} : Pending G (.alt es) s k → Pending G (.one (.or es)) s k
  | not {e s k} : Pending G (.one e) s k → Pending G (.one (.not e)) s k
  | rep {e mn mx s k} : Pending G (.loop e mx) s k → Pending G (.one (.rep e mn mx)) s k
  | call {n e s k} : G n = some e → Pending G (.one e) s k → Pending G (.one (.ruleName n)) s k
  /-- the node of the rule itself -/
  | made {n e s r ns} : G n = some e → Peg G e s (.ok r ns) → Pending G (.one (.ruleName n)) s (countTrees ns + 1)
  | seq_first {e es s k} : Pending G (.one e) s k → Pending G (.seq (e :: es)) s k
  | seq_next {e es s r ns k} : Peg G e s (.ok r ns) → Pending G (.seq es) r k → Pending G (.seq (e :: es)) s (countTrees ns + k)
  | alt_first {e es s k} : Pending G (.one e) s k → Pending G (.alt (e :: es)) s k
  | alt_next {e es s k} : Peg G e s .fail → Pending G (.alt es) s k → Pending G (.alt (e :: es)) s k
  | loop_first {e mx s k} : mx ≠ some 0 → Pending G (.one e) s k → Pending G (.loop e mx) s k
  | loop_next {e mx s r ns k} : mx ≠ some 0 → Peg G e s (.ok r ns) → Pending G (.loop e (mx.map (· - 1))) r k →
      Pending G (.loop e mx) s (countTrees ns + k)

/-- `k` is the greatest number of nodes at one moment. -/
def Peak (G : Str → Option Expr) (t : Task) (s : Str) (k : Nat) : Prop :=
  Pending G t s k ∧ ∀ j, Pending G t s j → j ≤ k

end DP.Spec
