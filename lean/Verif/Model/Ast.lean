/-
Model of src/ast/mod.rs
-/
import Verif.Model.Basic

namespace DP

/-- src/ast/mod.rs:37-45 `enum Node` -/
inductive Node where
  | val (s : Str)
  | rule (name : Str) (nodes : List Node)
  | eof
deriving Repr

/-- src/ast/mod.rs:19 `struct Error(pub String, pub Option<String>)` -/
structure AstError where
  desc : Str
  ctx : Option Str := none
deriving Repr, DecidableEq

/-- src/ast/mod.rs:31-33 `error` -/
def astError (desc : Str) (ctx : Option Str) : AstError := ⟨desc, ctx⟩

namespace Node

/-- src/ast/mod.rs:73-77 (closures `nname2prune`, `node2prune`): is this node to be removed? -/
def isNamedIn (names : List Str) : Node → Bool
  | .rule n _ => names.any (fun x => x == n)
  | _ => false

mutual
/-- src/ast/mod.rs:72-92 `Node::prune` -/
def prune (names : List Str) : Node → Node
  | .eof => .eof
  | .val v => .val v
  | .rule n vn => .rule n (pruneList names vn)
/-- src/ast/mod.rs:78-86 closure `prune_vn`. The left fold `acc.ipush(..)` / `acc` is written as the
equivalent right recursion (same order of the pushed nodes). -/
def pruneList (names : List Str) : List Node → List Node
  | [] => []
  | n :: ns =>
    if ! isNamedIn names n then prune names n :: pruneList names ns else pruneList names ns
end

/-- src/ast/mod.rs:124-128 closures `nname2keep`, `node2keep`. -/
def isKept (keep : List Str) : Node → Bool
  | .rule n _ => keep.any (fun x => x == n)
  | _ => true

mutual
/-- src/ast/mod.rs:122-145 `Node::pass_through_except` -/
def passThrough (keep : List Str) : Node → Node
  | .eof => .eof
  | .val v => .val v
  | .rule n vn => .rule n (passList keep vn)
/-- src/ast/mod.rs:123-139 `pthr_vn`. Left fold with `ipush`/`iappend` written as right recursion. -/
def passList (keep : List Str) : List Node → List Node
  | [] => []
  | .rule n vn :: ns =>
    if isKept keep (.rule n vn) then passThrough keep (.rule n vn) :: passList keep ns
    else passList keep vn ++ passList keep ns
  | n :: ns => passThrough keep n :: passList keep ns
end

mutual
/-- src/ast/mod.rs:174-197 `concat_nodes(nodes, n)`: append `n` to the accumulated siblings, merging it
into the last one if both are `Val`. -/
def concatNodes (acc : List Node) : Node → List Node
  | .eof => acc ++ [.eof]
  | .val v =>
    match acc.getLast? with
    | some (.val pv) => acc.dropLast ++ [.val (pv ++ v)]
    | _ => acc ++ [.val v]
  | .rule n vn => acc ++ [.rule n (compactNodes [] vn)]
/-- src/ast/mod.rs:198-202 `compact_nodes`: the left fold of `concat_nodes` (with its accumulator). -/
def compactNodes (acc : List Node) : List Node → List Node
  | [] => acc
  | n :: ns => compactNodes (concatNodes acc n) ns
end

/-- src/ast/mod.rs:173-208 `Node::compact` -/
def compact : Node → Node
  | .eof => .eof
  | .val v => .val v
  | .rule n vn => .rule n (compactNodes [] vn)

end Node

/-- src/ast/mod.rs:225-230 -/
def getNodenameAndNodes : Node → Except AstError (Str × List Node)
  | .rule nname nodes => .ok (nname, nodes)
  | _ => .error (astError c!"expected node::Rule" none)

/-- src/ast/mod.rs:242-247 -/
def getNodeVal : Node → Except AstError Str
  | .val v => .ok v
  | _ => .error (astError c!"expected node::Val" none)

/-- src/ast/mod.rs:272-277 -/
def getNodesUniqueVal (nodes : List Node) : Except AstError Str :=
  match nodes.head?, nodes.length with
  | some n, 1 => getNodeVal n
  | _, _ => .error (astError c!"expected only one value in nodes" none)

/-- src/ast/mod.rs:331-335 -/
def splitFirstNodes : List Node → Except AstError (Node × List Node)
  | n :: ns => .ok (n, ns)
  | [] => .error (astError c!"trying get first element from nodes on empty slice" none)

/-- src/ast/mod.rs:300-306 -/
def consumeVal (nodes : List Node) : Except AstError (Str × List Node) := do
  let (node, nodes) ← splitFirstNodes nodes
  match node with
  | .val v => .ok (v, nodes)
  | _ => .error (astError c!"expected Val node" none)

/-- src/ast/mod.rs:352-364 -/
def consumeThisValue (v : Str) (nodes : List Node) : Except AstError (List Node) := do
  let (node, nodes) ← splitFirstNodes nodes
  let nv ← getNodeVal node
  if nv == v then .ok nodes
  else .error (astError c!"trying get first element from nodes on empty slice" none)

/-- src/ast/mod.rs:380-401. `dbg` stands for the `{:?}` formatter of `Node`. -/
def consumeNodeGetSubnodesForRuleNameIs (dbg : Node → Str) (name : Str) (nodes : List Node) :
    Except AstError (List Node × List Node) := do
  let (node, nodes) ← splitFirstNodes nodes
  match node with
  | .rule n subNodes =>
    if n == name then .ok (nodes, subNodes)
    else .error (astError (c!"expected " ++ name ++ c!" node, received " ++ n) none)
  | unknown =>
    .error (astError (c!"expected " ++ name ++ c!" Node::Rule, received " ++ dbg unknown) none)

/-- src/ast/mod.rs:413-419 -/
def checkEmptyNodes (nodes : List Node) : Except AstError Unit :=
  if nodes.isEmpty then .ok () else .error (astError c!"not consumed full nodes" none)

/-- src/ast/mod.rs:433-439 -/
def peekFirstNode (nodes : List Node) : Except AstError Node :=
  match nodes with
  | [] => .error (astError c!"exptected node on peek_first_node" none)
  | n :: _ => .ok n

end DP
