/-
How many calls the functions on trees have in progress.
-/
import Verif.Model.TreeStack
import Verif.Spec.TreeStack

namespace DP
open Spec

mutual
theorem pruneWithin_eq (names : List Str) : ∀ d t, pruneWithin names d t =
    if treeDepth (t.prune names) ≤ d then some (t.prune names) else none
  | 0, t => by cases t <;> simp [pruneWithin, Node.prune, treeDepth]
  | d + 1, .eof => by simp [pruneWithin, Node.prune, treeDepth]
  | d + 1, .val v => by simp [pruneWithin, Node.prune, treeDepth]
  | d + 1, .rule n vn => by
    rw [pruneWithin, Node.prune, treeDepth, pruneListWithin_eq names d vn]
    by_cases h : forestDepth (Node.pruneList names vn) ≤ d <;> simp [h]
theorem pruneListWithin_eq (names : List Str) : ∀ d ns, pruneListWithin names d ns =
    if forestDepth (Node.pruneList names ns) ≤ d then some (Node.pruneList names ns) else none
  | d, [] => by simp [pruneListWithin, Node.pruneList, forestDepth]
  | d, n :: ns => by
    rw [pruneListWithin, Node.pruneList]
    split
    · rw [pruneWithin_eq names d n, pruneListWithin_eq names d ns, forestDepth]
      by_cases h1 : treeDepth (n.prune names) ≤ d <;> by_cases h2 : forestDepth (Node.pruneList names ns) ≤ d <;>
        simp [h1, h2] <;> try omega
    · exact pruneListWithin_eq names d ns
end

theorem isKept_rule (keep : List Str) (n : Str) (vn : List Node) : Node.isKept keep (.rule n vn) = decide (n ∈ keep) := by
  rw [Node.isKept, Bool.eq_iff_iff]
  simp

mutual
theorem passWithin_eq (keep : List Str) : ∀ d t, passWithin keep d t =
    if keptReach keep t ≤ d then some (t.passThrough keep) else none
  | 0, .eof => by simp [passWithin, keptReach]
  | 0, .val v => by simp [passWithin, keptReach]
  | 0, .rule n vn => by simp [passWithin, keptReach]
  | d + 1, .eof => by simp [passWithin, keptReach, Node.passThrough]
  | d + 1, .val v => by simp [passWithin, keptReach, Node.passThrough]
  | 1, .rule n vn => by
    have : ¬ 2 + reaches (keptTwice keep) vn ≤ 1 := by omega
    simp [passWithin, keptReach, this]
  | d + 2, .rule n vn => by
    rw [passWithin, keptReach, passFoldWithin_eq keep d vn, Node.passThrough]
    by_cases h : reaches (keptTwice keep) vn ≤ d
    · rw [if_pos h, if_pos (by omega)]
    · rw [if_neg h, if_neg (by omega)]
theorem passFoldWithin_eq (keep : List Str) : ∀ d ns, passFoldWithin keep d ns =
    if reaches (keptTwice keep) ns ≤ d then some (Node.passList keep ns) else none
  | d, [] => by simp [passFoldWithin, reaches, Node.passList]
  | d, .val v :: ns => by
    rw [passFoldWithin, passWithin_eq keep d (.val v), passFoldWithin_eq keep d ns, Node.passList, reaches, keptReach, reach]
    · by_cases h1 : 1 ≤ d <;> by_cases h2 : reaches (keptTwice keep) ns ≤ d <;> simp [h1, h2] <;> try omega
    all_goals simp
  | d, .eof :: ns => by
    rw [passFoldWithin, passWithin_eq keep d .eof, passFoldWithin_eq keep d ns, Node.passList, reaches, keptReach, reach]
    · by_cases h1 : 1 ≤ d <;> by_cases h2 : reaches (keptTwice keep) ns ≤ d <;> simp [h1, h2] <;> try omega
    all_goals simp
  | d, .rule n vn :: ns => by
    have hp := passWithin_eq keep d (.rule n vn)
    have hn := passFoldWithin_eq keep d ns
    rw [Node.passList, isKept_rule, reaches, reach, keptTwice]
    rw [keptReach] at hp
    by_cases hk : n ∈ keep
    · have e : passFoldWithin keep d (.rule n vn :: ns) =
          match passWithin keep d (.rule n vn) with
          | some n' => (match passFoldWithin keep d ns with | some ns' => some (n' :: ns') | none => none)
          | none => none := by
        cases d
        · rw [passFoldWithin.eq_2, isKept_rule, if_pos (by simpa using hk)]
          rcases passWithin keep _ (.rule n vn) with _ | _ <;> rcases passFoldWithin keep _ ns with _ | _ <;> rfl
        · rw [passFoldWithin.eq_3, isKept_rule, if_pos (by simpa using hk)]
          rcases passWithin keep _ (.rule n vn) with _ | _ <;> rcases passFoldWithin keep _ ns with _ | _ <;> rfl
      rw [e, hp, hn, decide_eq_true hk]
      simp only [hk, if_true]
      by_cases h1 : 2 + reaches (keptTwice keep) vn ≤ d <;> by_cases h2 : reaches (keptTwice keep) ns ≤ d <;> simp [h1, h2] <;> try omega
    · rw [decide_eq_false hk]
      simp only [hk, if_false, Bool.false_eq_true]
      cases d with
      | zero => rw [passFoldWithin.eq_2, isKept_rule, if_neg (by simpa using hk), if_neg (by omega)]
      | succ d =>
        rw [passFoldWithin.eq_3, isKept_rule, if_neg (by simpa using hk), passFoldWithin_eq keep d vn, hn]
        by_cases h1 : reaches (keptTwice keep) vn ≤ d <;> by_cases h2 : reaches (keptTwice keep) ns ≤ d + 1 <;>
          simp [h1, h2, Nat.add_comm 1] <;> try omega
end

mutual
theorem concatWithin_eq : ∀ d acc t, concatWithin d acc t =
    if reach (fun _ => 2) t ≤ d then some (Node.concatNodes acc t) else none
  | 0, acc, .eof => by simp [concatWithin, reach]
  | 0, acc, .val v => by simp [concatWithin, reach]
  | 0, acc, .rule n vn => by simp [concatWithin, reach]
  | d + 1, acc, .eof => by simp [concatWithin, reach, Node.concatNodes]
  | d + 1, acc, .val v => by
    rw [concatWithin, Node.concatNodes, reach, if_pos (by omega)]
    rcases acc.getLast? with _ | (_ | _ | _) <;> rfl
  | 1, acc, .rule n vn => by
    rw [concatWithin, reach, if_neg (by omega)]
  | d + 2, acc, .rule n vn => by
    rw [concatWithin, reach, compactFoldWithin_eq d [] vn, Node.concatNodes]
    by_cases h : reaches (fun _ => 2) vn ≤ d
    · rw [if_pos h, if_pos (by omega)]
    · rw [if_neg h, if_neg (by omega)]
theorem compactFoldWithin_eq : ∀ d acc ns, compactFoldWithin d acc ns =
    if reaches (fun _ => 2) ns ≤ d then some (Node.compactNodes acc ns) else none
  | d, acc, [] => by simp [compactFoldWithin, reaches, Node.compactNodes]
  | d, acc, n :: ns => by
    rw [compactFoldWithin, reaches, concatWithin_eq d acc n, Node.compactNodes]
    by_cases h1 : reach (fun _ => 2) n ≤ d
    · simp only [h1, if_true]
      rw [compactFoldWithin_eq d _ ns]
      by_cases h2 : reaches (fun _ => 2) ns ≤ d <;> simp [h1, h2] <;> try omega
    · rw [if_neg h1, if_neg (by omega)]
end

theorem compactWithin_eq (d : Nat) (t : Node) : compactWithin d t = if reach (fun _ => 2) t ≤ d then some t.compact else none := by
  match d, t with
  | 0, .eof => simp [compactWithin, reach]
  | 0, .val v => simp [compactWithin, reach]
  | 0, .rule n vn => simp [compactWithin, reach]
  | d + 1, .eof => simp [compactWithin, reach, Node.compact]
  | d + 1, .val v => simp [compactWithin, reach, Node.compact]
  | 1, .rule n vn => rw [compactWithin, reach, if_neg (by omega)]
  | d + 2, .rule n vn =>
    rw [compactWithin, reach, compactFoldWithin_eq d [] vn, Node.compact]
    by_cases h : reaches (fun _ => 2) vn ≤ d
    · rw [if_pos h, if_pos (by omega)]
    · rw [if_neg h, if_neg (by omega)]

mutual
theorem flattenAccWithin_eq : ∀ d acc t, flattenAccWithin d acc t = if treeDepth t ≤ d then some (flattenAcc acc t) else none
  | 0, acc, t => by cases t <;> simp [flattenAccWithin, treeDepth]
  | d + 1, acc, .eof => by simp [flattenAccWithin, treeDepth, flattenAcc]
  | d + 1, acc, .val v => by simp [flattenAccWithin, treeDepth, flattenAcc]
  | d + 1, acc, .rule n vn => by
    rw [flattenAccWithin, treeDepth, flattenFoldWithin_eq d _ vn, flattenAcc]
    by_cases h : forestDepth vn ≤ d <;> simp [h]
theorem flattenFoldWithin_eq : ∀ d acc ns, flattenFoldWithin d acc ns =
    if forestDepth ns ≤ d then some (flattenFold acc ns) else none
  | d, acc, [] => by simp [flattenFoldWithin, forestDepth, flattenFold]
  | d, acc, n :: ns => by
    rw [flattenFoldWithin, forestDepth, flattenAccWithin_eq d acc n, flattenFold]
    by_cases h1 : treeDepth n ≤ d
    · simp only [h1, if_true]
      rw [flattenFoldWithin_eq d _ ns]
      by_cases h2 : forestDepth ns ≤ d <;> simp [h1, h2] <;> try omega
    · rw [if_neg h1, if_neg (by omega)]
end

/-! ### Bounds -/

mutual
theorem reach_le {w : Str → Nat} {a b : Nat} (ha : ∀ n, a ≤ w n) (hb : ∀ n, w n ≤ b) (h1 : 1 ≤ b) (h2 : a ≤ 1) :
    ∀ t, a * treeDepth t ≤ reach w t ∧ reach w t ≤ b * treeDepth t
  | .val v => by simp [reach, treeDepth, h1, h2]
  | .eof => by simp [reach, treeDepth, h1, h2]
  | .rule n ns => by
    have := reaches_le ha hb h1 h2 ns
    have := ha n
    have := hb n
    rw [reach, treeDepth, Nat.mul_add, Nat.mul_add]
    omega
theorem reaches_le {w : Str → Nat} {a b : Nat} (ha : ∀ n, a ≤ w n) (hb : ∀ n, w n ≤ b) (h1 : 1 ≤ b) (h2 : a ≤ 1) :
    ∀ ns, a * forestDepth ns ≤ reaches w ns ∧ reaches w ns ≤ b * forestDepth ns
  | [] => by simp [reaches, forestDepth]
  | n :: ns => by
    have h3 := reach_le ha hb h1 h2 n
    have h4 := reaches_le ha hb h1 h2 ns
    rw [reaches, forestDepth, ← Nat.mul_max_mul_left, ← Nat.mul_max_mul_left]
    omega
end

mutual
theorem prune_shallower (names : List Str) : ∀ t : Node, treeDepth (t.prune names) ≤ treeDepth t
  | .val v => Nat.le_refl _
  | .eof => Nat.le_refl _
  | .rule n ns => by
    have := pruneList_shallower names ns
    rw [Node.prune, treeDepth, treeDepth]
    omega
theorem pruneList_shallower (names : List Str) : ∀ ns : List Node, forestDepth (Node.pruneList names ns) ≤ forestDepth ns
  | [] => Nat.le_refl _
  | n :: ns => by
    have h1 := prune_shallower names n
    have h2 := pruneList_shallower names ns
    rw [Node.pruneList, forestDepth]
    split
    · rw [forestDepth]; omega
    · omega
end

end DP
