/-
Property C76: the tree is at most proportional to the text.
-/
import Verif.Proofs.TreeSize
import Verif.Props.Readme
import Verif.Props.Effort

namespace DP
open Spec

/-- **C76**: whatever the rules are, the number of nodes of the tree that `parse` returns is at most proportional to the
length of the text. -/
theorem C76_size (R : SetOfRules) : ∃ K, ∀ s t, parse s R = .ok t → treeSize t ≤ K * (s.length + 1) := by
  obtain ⟨W, hW⟩ := rules_bound (fun e => esize (effective e)) R
  generalize ht : (W + 1) * (R.entries.map Prod.fst).length + (W + 1) = top
  refine ⟨2 ^ top * 4 ^ top, fun s t h => ?_⟩
  have h1 := size_le (G := denotes R) (l := R.entries.map Prod.fst) (W := W + 1) (fun n e hg => mem_keys hg)
    (fun n e hg => by
      obtain ⟨e', h1, rfl⟩ := Option.map_eq_some_iff.1 hg
      exact Nat.succ_le_succ (hW n e' h1)) ht.symm rfl rfl ((parse_iff _ _ _).1 h).2 _ _ rfl (by simp [esize]) [] List.nodup_nil (by simp)
    avoids_nil
  have h2 := cheap_le h1 (b := top) (by simp only [List.length_nil, Nat.sub_zero, esize]; omega)
  simp only [forestSize, List.length_nil, Nat.add_zero, Nat.sub_zero] at h2
  rcases Nat.eq_zero_or_pos s.length with h0 | h0
  · have h6 := h2.1 h0
    have h7 : 2 ^ top * 1 ≤ 2 ^ top * 4 ^ top := Nat.mul_le_mul_left _ (Nat.pow_pos (by omega))
    have h8 : 2 ^ top * 4 ^ top * 1 ≤ 2 ^ top * 4 ^ top * (s.length + 1) := Nat.mul_le_mul_left _ (by omega)
    omega
  · have h6 := h2.2 h0
    have h7 : 2 ^ top * 4 ^ top * (s.length - 1 + 1) ≤ 2 ^ top * 4 ^ top * (s.length + 1) := Nat.mul_le_mul_left _ (by omega)
    rw [Nat.mul_add] at h7
    omega

/-- Whatever the rules are, the tree is no deeper than (number of rules) × (length of the text + 1), not counting the leaf. -/
theorem C76_depth {R : SetOfRules} {s t} (h : parse s R = .ok t) : treeDepth t ≤ R.entries.length * (s.length + 1) + 1 := by
  have h1 := depth_le (G := denotes R) (l := R.entries.map Prod.fst) (fun n e hg => mem_keys hg) ((parse_iff _ _ _).1 h).2 _ _ rfl []
    List.nodup_nil (by simp) avoids_nil
  simp only [forestDepth, List.length_nil, List.length_map, Nat.sub_zero, Nat.max_zero] at h1
  rw [Nat.mul_add, Nat.mul_one]
  exact h1

/-! ### The depth is attained -/

/-- `main = "a" main / ""` -/
def exNest : SetOfRules := ⟨[(c!"main", .or [.and [.simple (.literal c!"a"), .ruleName c!"main"], .simple (.literal [])])]⟩

def nestTree : Nat → Node
  | 0 => .rule c!"main" [.val []]
  | n + 1 => .rule c!"main" [.val c!"a", nestTree n]

theorem nest_peg (n : Nat) : Peg (denotes exNest) (.ruleName c!"main") (List.replicate n 'a') (.ok [] [nestTree n]) := by
  induction n with
  | zero => exact .call_ok rfl (.or_next (.and_fail (.lit_fail _ _ (by decide))) (.or_ok (.lit_ok [] [])))
  | succ n ih => exact .call_ok rfl (.or_ok (.and_ok (.lit_ok c!"a" (List.replicate n 'a')) (.and_ok ih (.and_nil _))))

/-- **C76**, the bound of the depth is attained: one rule, `n` letters, depth `n + 2`. -/
theorem C76_depth_attained (n : Nat) : ∃ t, parse (List.replicate n 'a') exNest = .ok t ∧ treeDepth t = 1 * (n + 1) + 1 := by
  refine ⟨_, (parse_iff _ _ _).2 ⟨ascii_as n, nest_peg n⟩, ?_⟩
  induction n with
  | zero => rfl
  | succ n ih =>
    simp only [nestTree, treeDepth, forestDepth, ih]
    omega

/-- and so is a size proportional to the text -/
example (n : Nat) : treeSize (nestTree n) = 2 * (n + 1) := by
  induction n with
  | zero => rfl
  | succ n ih => simp only [nestTree, treeSize, forestSize, ih]; omega

/-! ### The factor depends on the rules -/

/-- `(((""{2,2}){2,2})...){2,2}` -/
def twofold : Nat → Expr
  | 0 => .simple (.literal [])
  | n + 1 => .rep (twofold n) 2 (some 2)

theorem twofold_effective (n : Nat) : effective (twofold n) = twofold n := by
  induction n with
  | zero => rfl
  | succ n ih => simp only [twofold, effective, ih]; rfl

theorem twofold_peg (G : Str → Option Expr) (n : Nat) : ∃ ns, Peg G (twofold n) [] (.ok [] ns) ∧ forestSize ns = 2 ^ n := by
  induction n with
  | zero => exact ⟨_, .lit_ok [] [], rfl⟩
  | succ n ih =>
    obtain ⟨ns, h, hs⟩ := ih
    refine ⟨_, .rep_more (by simp) h (.rep_more (by simp) h (.rep_full _ _ _)), ?_⟩
    rw [List.append_nil, forestSize_append, hs, Nat.pow_succ]
    omega

/-- **C76**, no factor is good for all rules: with `n` nested repetitions the empty text has a tree of more than `2 ^ n`
nodes. -/
theorem C76_factor (n : Nat) : ∃ t, parse [] ⟨[(c!"main", twofold n)]⟩ = .ok t ∧ treeSize t = 2 ^ n + 1 := by
  obtain ⟨ns, h, hs⟩ := twofold_peg (denotes ⟨[(c!"main", twofold n)]⟩) n
  refine ⟨.rule c!"main" ns, (parse_iff _ _ _).2 ⟨fun c hc => absurd hc List.not_mem_nil, .call_ok ?_ h⟩, by rw [treeSize, hs]⟩
  show some (effective (twofold n)) = _
  rw [twofold_effective]

/-- rules that are not well-formed are covered: `main = EOF / . main / main` is left recursive, but `parse` returns -/
example : ¬ WellFormed (denotes ⟨[(c!"main", .or [.simple .eof, .and [.simple .dot, .ruleName c!"main"], .ruleName c!"main"])]⟩) ∧
    ∃ t, parse c!"aa" ⟨[(c!"main", .or [.simple .eof, .and [.simple .dot, .ruleName c!"main"], .ruleName c!"main"])]⟩ = .ok t ∧ treeDepth t = 4 := by
  constructor
  · intro h
    exact h.no_left_recursion c!"main" (.single ⟨_, rfl, .or (List.mem_cons_of_mem _ (List.mem_cons_of_mem _ List.mem_cons_self)) (.here _)⟩)
  · refine ⟨.rule c!"main" [.val c!"a", .rule c!"main" [.val c!"a", .rule c!"main" [.val c!"EOF"]]], ?_, rfl⟩
    exact parse_of_fuel (f := 20) (by decide +kernel) (by simp)

end DP
