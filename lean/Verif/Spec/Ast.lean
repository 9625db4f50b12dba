/-
Independent specification of the AST transformations.
-/
import Verif.Spec.Tree
import Verif.Model.Flat

namespace DP.Spec

/-- What a node is, without its children. -/
inductive Item where
  | val (v : Str)
  | rule (n : Str)
  | eof
deriving DecidableEq

mutual
/-- The nodes of a tree in document order, each with the names of its ancestors (outermost first),
starting from the given ancestors. -/
def outline (anc : List Str) : Node → List (List Str × Item)
  | .val v => [(anc, .val v)]
  | .eof => [(anc, .eof)]
  | .rule n ns => (anc, .rule n) :: outlineL (anc ++ [n]) ns
def outlineL (anc : List Str) : List Node → List (List Str × Item)
  | [] => []
  | t :: ts => outline anc t ++ outlineL anc ts
end

/-- The node survives the removal of all the subtrees rooted at a rule named in `names`. -/
def Survives (names : List Str) (x : List Str × Item) : Prop :=
  (∀ a ∈ x.1, a ∉ names) ∧ ∀ n, x.2 = .rule n → n ∉ names

instance (names : List Str) (x : List Str × Item) : Decidable (Survives names x) :=
  match x with
  | (anc, .rule n) =>
    decidable_of_iff ((∀ a ∈ anc, a ∉ names) ∧ n ∉ names) (by simp [Survives])
  | (anc, .val v) => decidable_of_iff (∀ a ∈ anc, a ∉ names) (by simp [Survives])
  | (anc, .eof) => decidable_of_iff (∀ a ∈ anc, a ∉ names) (by simp [Survives])

/-- The node after dissolving all the rule nodes not named in `keep`: it disappears if it is one of them,
and otherwise only loses those ancestors. -/
def dissolve (keep : List Str) : List Str × Item → Option (List Str × Item)
  | (anc, .rule n) => if n ∈ keep then some (anc.filter (· ∈ keep), .rule n) else none
  | (anc, i) => some (anc.filter (· ∈ keep), i)

/-- `Joined ns ns'`: `ns'` is `ns` with each maximal run of sibling `Val` nodes, at any depth, replaced by a
single `Val` with the concatenated text. -/
inductive Joined : List Node → List Node → Prop
  | nil : Joined [] []
  | run {rest rest'} (vs : List Str) : vs ≠ [] → (∀ v r, rest ≠ .val v :: r) → Joined rest rest' →
      Joined (vs.map .val ++ rest) (.val vs.flatten :: rest')
  | rule {n ns ns' rest rest'} : Joined ns ns' → Joined rest rest' →
      Joined (.rule n ns :: rest) (.rule n ns' :: rest')
  | eof {rest rest'} : Joined rest rest' → Joined (.eof :: rest) (.eof :: rest')

/-- No two sibling `Val` nodes are adjacent, at any depth. -/
inductive NoAdjacentVals : List Node → Prop
  | nil : NoAdjacentVals []
  | val {v rest} : (∀ v' r, rest ≠ .val v' :: r) → NoAdjacentVals rest → NoAdjacentVals (.val v :: rest)
  | rule {n ns rest} : NoAdjacentVals ns → NoAdjacentVals rest → NoAdjacentVals (.rule n ns :: rest)
  | eof {rest} : NoAdjacentVals rest → NoAdjacentVals (.eof :: rest)

/-- Well-bracketed sequences of flat nodes. -/
inductive Balanced : List FNode → Prop
  | nil : Balanced []
  | val {l} (v) : Balanced l → Balanced (.val v :: l)
  | rule {l l'} (n) : Balanced l → Balanced l' → Balanced (.beginRule n :: l ++ .endRule n :: l')

/-- Reading a flat sequence from left to right, with the names of the rules that are open (outermost first). -/
def reading : List Str → List FNode → List (List Str × Item)
  | _, [] => []
  | anc, .val v :: l => (anc, .val v) :: reading anc l
  | anc, .beginRule n :: l => (anc, .rule n) :: reading (anc ++ [n]) l
  | anc, .endRule _ :: l => reading anc.dropLast l
  | anc, .eof :: l => (anc, .eof) :: reading anc l

/-- A tree without EOF nodes. -/
inductive NoEofNodes : Node → Prop
  | val (v) : NoEofNodes (.val v)
  | rule {n ns} : (∀ t ∈ ns, NoEofNodes t) → NoEofNodes (.rule n ns)

/-- the values in a flat sequence -/
def flatLeaves : List FNode → List Str
  | [] => []
  | .val v :: l => v :: flatLeaves l
  | _ :: l => flatLeaves l

end DP.Spec
