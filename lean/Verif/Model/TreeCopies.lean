/-
`Node::compact` of Model/Ast.lean, counting the characters of values that it copies: the value before each node
(src/ast/mod.rs:176 `to_string`), the joined value twice (180 `format!`, 189 `clone`), a value that is not joined once
(191 and 205 `clone`). (Not counted: names of rules, and what the vectors of the crate idata copy.)
-/
import Verif.Model.Ast

namespace DP.Node

/-- the characters of the last node, if it is a value: src/ast/mod.rs:175-178 `get_val` copies them -/
def lastLength (nodes : List Node) : Nat :=
  match nodes.getLast? with
  | some (.val v) => v.length
  | _ => 0

mutual
/-- src/ast/mod.rs:174-197 `concat_nodes`; line 184 calls `get_val` whatever `n` is -/
def concatCopies (acc : List Node) : Node → List Node × Nat
  | .eof => (acc ++ [.eof], lastLength acc)
  | .val v =>
    match acc.getLast? with
    | some (.val pv) =>
      let c := pv ++ v
      (acc.dropLast ++ [.val c], lastLength acc + c.length + c.length)
    | _ => (acc ++ [.val v], lastLength acc + v.length)
  | .rule n vn =>
    match compactNodesCopies [] vn with
    | (vn', k) => (acc ++ [.rule n vn'], lastLength acc + k)
/-- src/ast/mod.rs:198-202 `compact_nodes` -/
def compactNodesCopies (acc : List Node) : List Node → List Node × Nat
  | [] => (acc, 0)
  | n :: ns =>
    match concatCopies acc n with
    | (acc', k) =>
      match compactNodesCopies acc' ns with
      | (r, k') => (r, k + k')
end

/-- src/ast/mod.rs:173-208 `Node::compact`: the tree, and the characters copied to build it -/
def compactCopies : Node → Node × Nat
  | .eof => (.eof, 0)
  | .val v => (.val v, v.length)
  | .rule n vn =>
    match compactNodesCopies [] vn with
    | (vn', k) => (.rule n vn', k)

end DP.Node
