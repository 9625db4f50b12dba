/-
`prune`, `pass_through_except` and `compact` of Model/Ast.lean and `flatten` of Model/Flat.lean, if only so many calls of them (and
of their inner functions, not counting closures and library functions) may be in progress at a time. `none`: one call too many.
-/
import Verif.Model.Flat

namespace DP

mutual
/-- src/ast/mod.rs:72-92 `Node::prune` -/
def pruneWithin (names : List Str) : Nat → Node → Option Node
  | 0, _ => none
  | _ + 1, .eof => some .eof
  | _ + 1, .val v => some (.val v)
  | d + 1, .rule n vn =>
    match pruneListWithin names d vn with
    | some vn' => some (.rule n vn')
    | none => none
/-- src/ast/mod.rs:78-86 closure `prune_vn` -/
def pruneListWithin (names : List Str) : Nat → List Node → Option (List Node)
  | _, [] => some []
  | d, n :: ns =>
    if ! Node.isNamedIn names n then
      match pruneWithin names d n with
      | some n' =>
        match pruneListWithin names d ns with
        | some ns' => some (n' :: ns')
        | none => none
      | none => none
    else pruneListWithin names d ns
end

mutual
/-- src/ast/mod.rs:122-145 `Node::pass_through_except`; a rule calls `pthr_vn` (143) -/
def passWithin (keep : List Str) : Nat → Node → Option Node
  | 0, _ => none
  | _ + 1, .eof => some .eof
  | _ + 1, .val v => some (.val v)
  | 1, .rule _ _ => none
  | d + 2, .rule n vn =>
    match passFoldWithin keep d vn with
    | some vn' => some (.rule n vn')
    | none => none
/-- src/ast/mod.rs:129-138 the fold of `pthr_vn`, with the calls that it may still make; for a rule that is not kept it calls
`pthr_vn` (134) -/
def passFoldWithin (keep : List Str) : Nat → List Node → Option (List Node)
  | _, [] => some []
  | d, .rule n vn :: ns =>
    if Node.isKept keep (.rule n vn) then
      match passWithin keep d (.rule n vn) with
      | some n' =>
        match passFoldWithin keep d ns with
        | some ns' => some (n' :: ns')
        | none => none
      | none => none
    else
      match d with
      | 0 => none
      | d' + 1 =>
        match passFoldWithin keep d' vn with
        | some vn' =>
          match passFoldWithin keep (d' + 1) ns with
          | some ns' => some (vn' ++ ns')
          | none => none
        | none => none
  | d, n :: ns =>
    match passWithin keep d n with
    | some n' =>
      match passFoldWithin keep d ns with
      | some ns' => some (n' :: ns')
      | none => none
    | none => none
end

mutual
/-- src/ast/mod.rs:174-197 `concat_nodes`; for a rule it calls `compact_nodes` (194) -/
def concatWithin : Nat → List Node → Node → Option (List Node)
  | 0, _, _ => none
  | _ + 1, acc, .eof => some (acc ++ [.eof])
  | _ + 1, acc, .val v =>
    match acc.getLast? with
    | some (.val pv) => some (acc.dropLast ++ [.val (pv ++ v)])
    | _ => some (acc ++ [.val v])
  | 1, _, .rule _ _ => none
  | d + 2, acc, .rule n vn =>
    match compactFoldWithin d [] vn with
    | some vn' => some (acc ++ [.rule n vn'])
    | none => none
/-- src/ast/mod.rs:199-201 the fold of `compact_nodes`, with the calls that it may still make -/
def compactFoldWithin : Nat → List Node → List Node → Option (List Node)
  | _, acc, [] => some acc
  | d, acc, n :: ns =>
    match concatWithin d acc n with
    | some acc' => compactFoldWithin d acc' ns
    | none => none
end

/-- src/ast/mod.rs:173-208 `Node::compact`; a rule calls `compact_nodes` (206) -/
def compactWithin : Nat → Node → Option Node
  | 0, _ => none
  | _ + 1, .eof => some .eof
  | _ + 1, .val v => some (.val v)
  | 1, .rule _ _ => none
  | d + 2, .rule n vn =>
    match compactFoldWithin d [] vn with
    | some vn' => some (.rule n vn')
    | none => none

mutual
/-- src/ast/flat.rs:82-92 `flatten_acc` -/
def flattenAccWithin : Nat → List FNode → Node → Option (List FNode)
  | 0, _, _ => none
  | _ + 1, acc, .eof => some acc
  | _ + 1, acc, .val v => some (acc ++ [.val v])
  | d + 1, acc, .rule n vn =>
    match flattenFoldWithin d (acc ++ [.beginRule n]) vn with
    | some acc' => some (acc' ++ [.endRule n])
    | none => none
/-- src/ast/flat.rs:88 the fold -/
def flattenFoldWithin : Nat → List FNode → List Node → Option (List FNode)
  | _, acc, [] => some acc
  | d, acc, n :: ns =>
    match flattenAccWithin d acc n with
    | some acc' => flattenFoldWithin d acc' ns
    | none => none
end

/-- src/ast/flat.rs:81-95 `ast::Node::flatten` -/
def flattenWithin : Nat → Node → Option (List FNode)
  | 0, _ => none
  | d + 1, t => flattenAccWithin d [] t

end DP
