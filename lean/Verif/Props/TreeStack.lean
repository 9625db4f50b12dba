/-
Property C87: the calls that the functions on trees have in progress.
-/
import Verif.Proofs.TreeStack
import Verif.Props.TreeSize

namespace DP
open Spec

/-- **C87**: `prune` has as many calls in progress as its result is deep: what is removed does not count. -/
theorem C87_prune (names : List Str) (d : Nat) (t : Node) :
    pruneWithin names d t = if treeDepth (t.prune names) ≤ d then some (t.prune names) else none :=
  pruneWithin_eq names d t

/-- **C87**: `pass_through_except` as the tree it is given is deep, where the rules that are kept count twice; those that it removes count
as well. -/
theorem C87_pass_through (keep : List Str) (d : Nat) (t : Node) :
    passWithin keep d t = if keptReach keep t ≤ d then some (t.passThrough keep) else none :=
  passWithin_eq keep d t

/-- **C87**: `compact` as the tree is deep, where rules count twice. -/
theorem C87_compact (d : Nat) (t : Node) : compactWithin d t = if reach (fun _ => 2) t ≤ d then some t.compact else none :=
  compactWithin_eq d t

/-- **C87**: `flatten` one more than the tree is deep. -/
theorem C87_flatten (d : Nat) (t : Node) : flattenWithin d t = if treeDepth t + 1 ≤ d then some t.flatten else none := by
  cases d with
  | zero => rw [flattenWithin, if_neg (by omega)]
  | succ d =>
    rw [flattenWithin, flattenAccWithin_eq, Node.flatten]
    by_cases h : treeDepth t ≤ d <;> simp [h]

/-- So for all four the depth of the tree decides, up to a factor of two: twice the depth and one more is enough. -/
theorem C87_enough {t : Node} {d : Nat} (h : 2 * treeDepth t + 1 ≤ d) (names keep : List Str) :
    pruneWithin names d t = some (t.prune names) ∧ passWithin keep d t = some (t.passThrough keep) ∧
    compactWithin d t = some t.compact ∧ flattenWithin d t = some t.flatten := by
  refine ⟨?_, ?_, ?_, ?_⟩
  · rw [C87_prune, if_pos]
    have := prune_shallower names t
    omega
  · rw [C87_pass_through, if_pos]
    cases t with
    | rule n ns =>
      have := (reaches_le (w := keptTwice keep) (a := 1) (b := 2) (by intro n; unfold keptTwice; split <;> omega)
        (by intro n; unfold keptTwice; split <;> omega) (by omega) (by omega) ns).2
      rw [keptReach]
      rw [treeDepth] at h
      omega
    | _ => rw [keptReach] <;> first | omega | simp
  · rw [C87_compact, if_pos]
    have := (reach_le (w := fun _ => 2) (a := 1) (b := 2) (by simp) (by simp) (by omega) (by omega) t).2
    omega
  · rw [C87_flatten, if_pos (by omega)]

/-- less than the depth is not, except for `prune`, where the depth of the result counts. -/
theorem C87_too_few {t : Node} {d : Nat} (h : d < treeDepth t) (keep : List Str) :
    pruneWithin [] d t = none ∧ passWithin keep d t = none ∧ compactWithin d t = none ∧ flattenWithin d t = none := by
  refine ⟨?_, ?_, ?_, ?_⟩
  · rw [C87_prune, if_neg]
    rw [C24_prune_nothing]
    omega
  · rw [C87_pass_through, if_neg]
    cases t with
    | rule n ns =>
      have := (reaches_le (w := keptTwice keep) (a := 1) (b := 2) (by intro n; unfold keptTwice; split <;> omega)
        (by intro n; unfold keptTwice; split <;> omega) (by omega) (by omega) ns).1
      rw [keptReach]
      rw [treeDepth] at h
      omega
    | _ => rw [treeDepth] at h; rw [keptReach] <;> first | omega | simp
  · rw [C87_compact, if_neg]
    have := (reach_le (w := fun _ => 2) (a := 1) (b := 2) (by simp) (by simp) (by omega) (by omega) t).1
    omega
  · rw [C87_flatten, if_neg (by omega)]

/-- **C87**: so for the trees of `parse` calls in proportion to the text suffice, whatever the rules. -/
theorem C87_linear (R : SetOfRules) : ∃ K, ∀ s t d, parse s R = .ok t → K * (s.length + 1) ≤ d → ∀ names keep,
    pruneWithin names d t = some (t.prune names) ∧ passWithin keep d t = some (t.passThrough keep) ∧
    compactWithin d t = some t.compact ∧ flattenWithin d t = some t.flatten := by
  refine ⟨2 * R.entries.length + 3, fun s t d h hd names keep => C87_enough ?_ names keep⟩
  have := C76_depth h
  rw [Nat.add_mul, Nat.mul_assoc] at hd
  omega

/-- **C87**: and no fixed number does: with `main = "a" main / ""` the tree of `n` letters needs more than `n`. -/
theorem C87_deep (n : Nat) : ∃ t, parse (List.replicate n 'a') exNest = .ok t ∧ ∀ d ≤ n + 1, ∀ keep,
    pruneWithin [] d t = none ∧ passWithin keep d t = none ∧ compactWithin d t = none ∧ flattenWithin d t = none := by
  obtain ⟨t, h1, h2⟩ := C76_depth_attained n
  exact ⟨t, h1, fun d hd keep => C87_too_few (by omega) keep⟩

/-! ### Concretely -/

/-- `x` in `y` in `main`, with a value -/
def exDeep : Node := .rule c!"main" [.rule c!"y" [.rule c!"x" [.val c!"1"]], .val c!"2"]

example : treeDepth exDeep = 4 ∧ keptReach [c!"y"] exDeep = 6 ∧ reach (fun _ => 2) exDeep = 7 ∧ treeDepth (exDeep.prune [c!"y"]) = 2 := by
  refine ⟨by decide, by decide, by decide, ?_⟩
  simp [exDeep, Node.prune, Node.pruneList, Node.isNamedIn, treeDepth, forestDepth]

/-- without `y` two calls are enough -/
example : pruneWithin [c!"y"] 2 exDeep = some (.rule c!"main" [.val c!"2"]) ∧ pruneWithin [] 3 exDeep = none := by
  constructor <;> simp [exDeep, pruneWithin, pruneListWithin, Node.isNamedIn]

/-- `x` is dissolved, but takes a call all the same -/
example : passWithin [c!"y"] 5 exDeep = none ∧
    passWithin [c!"y"] 6 exDeep = some (.rule c!"main" [.rule c!"y" [.val c!"1"], .val c!"2"]) := by
  constructor <;> simp [exDeep, passWithin, passFoldWithin, Node.isKept]

example : compactWithin 6 exDeep = none ∧ compactWithin 7 exDeep = some exDeep ∧ flattenWithin 4 exDeep = none := by
  refine ⟨?_, ?_, ?_⟩ <;> simp [exDeep, compactWithin, compactFoldWithin, concatWithin, flattenWithin, flattenAccWithin, flattenFoldWithin]

end DP
