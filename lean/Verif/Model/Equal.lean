/-
Model of the comparisons of the public types: the derived `PartialEq`, `PartialOrd` and `Ord`, and of
`Display for NRep`. `derive` compares the variants, then the fields in the order of their declaration.
-/
import Verif.Model.Flat
import Verif.Model.Parser

namespace DP.Equal

mutual
/-- `==` of `ast::Node` (src/ast/mod.rs:36) -/
def node : Node → Node → Bool
  | .val s, .val s' => s == s'
  | .rule n ns, .rule n' ns' => n == n' && nodes ns ns'
  | .eof, .eof => true
  | _, _ => false
/-- `==` of `Vec<ast::Node>` -/
def nodes : List Node → List Node → Bool
  | [], [] => true
  | t :: ts, t' :: ts' => node t t' && nodes ts ts'
  | _, _ => false
end

/-- `==` of `flat::Node` (src/ast/flat.rs:25) -/
def fnode : FNode → FNode → Bool
  | .val s, .val s' => s == s'
  | .beginRule n, .beginRule n' => n == n'
  | .endRule n, .endRule n' => n == n'
  | .eof, .eof => true
  | _, _ => false

/-- `==` of `Vec<flat::Node>` -/
def fnodes : List FNode → List FNode → Bool
  | [], [] => true
  | t :: ts, t' :: ts' => fnode t t' && fnodes ts ts'
  | _, _ => false

/-- `==` of `ast::Error` (src/ast/mod.rs:18) -/
def astError (e e' : AstError) : Bool :=
  e.desc == e'.desc && (match e.ctx, e'.ctx with
    | none, none => true
    | some s, some s' => s == s'
    | _, _ => false)

/-- `==` of `Possition` (src/parser/mod.rs:32) -/
def pos (p p' : Pos) : Bool :=
  p.n == p'.n && p.row == p'.row && p.col == p'.col && p.startLine == p'.startLine

/-- the discriminant of `ErrPriority` (src/parser/mod.rs:57-62) -/
def discriminant : Prio → Nat
  | .normal => 0
  | .critical => 1

/-- `==` of `ErrPriority` (src/parser/mod.rs:56) -/
def prio (p p' : Prio) : Bool := discriminant p == discriminant p'

/-- `cmp` of `ErrPriority` (src/parser/mod.rs:56) -/
def cmp (p p' : Prio) : Ordering := compare (discriminant p) (discriminant p')

/-- `partial_cmp` of `ErrPriority` (src/parser/mod.rs:56) -/
def partialCmp (p p' : Prio) : Option Ordering := some (cmp p p')

/-- `max` of `ErrPriority`, as `Ord` provides it: the second one if they are equal -/
def max (p p' : Prio) : Prio := if cmp p p' = .gt then p else p'

/-- `min` of `ErrPriority`, as `Ord` provides it -/
def min (p p' : Prio) : Prio := if cmp p p' = .gt then p' else p

/-- src/parser/expression/mod.rs:156-160 `Display for NRep` -/
def displayNRep (n : Nat) : Str := Nat.toDigits 10 n

end DP.Equal
