/-
Model of src/ast/flat.rs
-/
import Verif.Model.Ast

namespace DP

/-- src/ast/flat.rs:26-35 `flat::Node` -/
inductive FNode where
  | val (s : Str)
  | beginRule (name : Str)
  | endRule (name : Str)
  | eof
deriving Repr, DecidableEq

mutual
/-- src/ast/flat.rs:82-92 `flatten_acc` -/
def flattenAcc (acc : List FNode) : Node → List FNode
  | .eof => acc
  | .val v => acc ++ [.val v]
  | .rule n vn => flattenFold (acc ++ [.beginRule n]) vn ++ [.endRule n]
/-- src/ast/flat.rs:88 `vn.iter().fold(acc, |facc, n| flatten_acc(facc, n))` -/
def flattenFold (acc : List FNode) : List Node → List FNode
  | [] => acc
  | n :: ns => flattenFold (flattenAcc acc n) ns
end

/-- src/ast/flat.rs:81-95 `ast::Node::flatten` -/
def Node.flatten (t : Node) : List FNode := flattenAcc [] t

namespace Flat

/-- src/ast/flat.rs:189-193 -/
def splitFirstNodes : List FNode → Except AstError (FNode × List FNode)
  | n :: ns => .ok (n, ns)
  | [] => .error (astError c!"trying get first element from nodes on empty slice" none)

/-- src/ast/flat.rs:115-132 -/
def consumeNodeStartRuleName (name : Str) (nodes : List FNode) : Except AstError (List FNode) := do
  let (node, nodes) ← splitFirstNodes nodes
  match node with
  | .beginRule n =>
    if n == name then .ok nodes
    else .error (astError (c!"expected " ++ name ++ c!" node, received " ++ n) none)
  | _ => .error (astError (c!"expected begin rule for " ++ name) none)

/-- src/ast/flat.rs:150-164 -/
def consumeNodeEndRuleName (name : Str) (nodes : List FNode) : Except AstError (List FNode) := do
  let (node, nodes) ← splitFirstNodes nodes
  match node with
  | .endRule n =>
    if n == name then .ok nodes
    else .error (astError (c!"expected " ++ name ++ c!" node, received " ++ n) none)
  | _ => .error (astError (c!"expected end rule for " ++ name) none)

/-- src/ast/flat.rs:208-214 -/
def peekFirstNode : List FNode → Except AstError FNode
  | [] => .error (astError c!"exptected node on peek_first_node" none)
  | n :: _ => .ok n

/-- src/ast/flat.rs:226-231 -/
def getNodeVal : FNode → Except AstError Str
  | .val v => .ok v
  | _ => .error (astError c!"expected node::Val" none)

/-- src/ast/flat.rs:248-260 -/
def consumeThisValue (v : Str) (nodes : List FNode) : Except AstError (List FNode) := do
  let (node, nodes) ← splitFirstNodes nodes
  let nv ← getNodeVal node
  if nv == v then .ok nodes
  else .error (astError c!"trying get first element from nodes on empty slice" none)

/-- src/ast/flat.rs:274-280 -/
def getNodename : FNode → Except AstError Str
  | .beginRule n => .ok n
  | .endRule n => .ok n
  | _ => .error (astError c!"expected node::Rule" none)

/-- src/ast/flat.rs:303-309 -/
def consumeVal (nodes : List FNode) : Except AstError (Str × List FNode) := do
  let (node, nodes) ← splitFirstNodes nodes
  match node with
  | .val v => .ok (v, nodes)
  | _ => .error (astError c!"expected Val node" none)

end Flat
end DP
