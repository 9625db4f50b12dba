/-
Independent specification: the text spelled by an AST, and the shape of an AST with respect to a grammar.
-/
import Verif.Spec.Peg

namespace DP.Spec

mutual
/-- the texts of the `Val` leaves, from left to right -/
def leaves : Node → List Str
  | .val v => [v]
  | .rule _ ns => leavesL ns
  | .eof => []
def leavesL : List Node → List Str
  | [] => []
  | n :: ns => leaves n ++ leavesL ns
end

/-- the text spelled by a tree -/
def text (t : Node) : Str := (leaves t).flatten

/-- the text spelled by a list of trees -/
def textL (ts : List Node) : Str := (leavesL ts).flatten

/-- `Inst G e ns`: the nodes `ns` have the shape prescribed by the expression `e`. -/
inductive Inst (G : Str → Option Expr) : Expr → List Node → Prop
  | literal (l) : Inst G (.simple (.literal l)) [.val l]
  | char {cs rs c} : InClass cs rs c → Inst G (.simple (.mtch cs rs)) [.val [c]]
  | dot (c) : Inst G (.simple .dot) [.val [c]]
  | eof : Inst G (.simple .eof) [.val c!"EOF"]
  | seq_nil : Inst G (.and []) []
  | seq {e es ns ns'} : Inst G e ns → Inst G (.and es) ns' → Inst G (.and (e :: es)) (ns ++ ns')
  | choice {e es ns} : e ∈ es → Inst G e ns → Inst G (.or es) ns
  | not (e) : Inst G (.not e) []
  | rep {e mn mx} (copies : List (List Node)) : (∀ ns ∈ copies, Inst G e ns) →
      mn ≤ copies.length → (∀ m, mx = some m → copies.length ≤ m) →
      Inst G (.rep e mn mx) copies.flatten
  | call {n e ns} : G n = some e → Inst G e ns → Inst G (.ruleName n) [.rule n ns]

/-- `Under t u`: `u` is `t` or a node below it. -/
inductive Under : Node → Node → Prop
  | refl (t) : Under t t
  | child {n ns t u} : t ∈ ns → Under t u → Under (.rule n ns) u

end DP.Spec
