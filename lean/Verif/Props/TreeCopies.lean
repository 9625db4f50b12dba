/-
Property C86: the text that `compact` copies.
-/
import Verif.Proofs.TreeCopies
import Verif.Props.TreeSize
import Verif.Props.Combine
import Verif.Props.CalcCost

namespace DP
open Spec Spec.Syntax Spec.Readme

/-- **C86**: the counting does not disturb: beside the number stands what `compact` returns. -/
theorem C86_same (t : Node) : (Node.compactCopies t).1 = t.compact := by
  cases t with
  | val v => rfl
  | eof => rfl
  | rule n ns => rw [Node.compactCopies, Node.compact, ← compactNodesCopies_fst]

/-- **C86**: the exact number: in front of each node the values directly before it are copied, and if it is a value then what comes
out twice more. -/
theorem C86_exact : (∀ n ns, (Node.compactCopies (.rule n ns)).2 = joinCosts [] ns) ∧
    (∀ v, (Node.compactCopies (.val v)).2 = v.length) ∧ (Node.compactCopies .eof).2 = 0 :=
  ⟨compactCopies_rule, fun _ => rfl, rfl⟩

/-- **C86**: at least `(3 k² + k) / 2 - 1` characters if somewhere in the tree `k` values, not empty, stand side by side. -/
theorem C86_siblings {t : Node} {n : Str} {xs ys : List Node} {vs : List Str} (hu : Under t (.rule n (xs ++ vs.map .val ++ ys)))
    (hv : ∀ v ∈ vs, v ≠ []) : 3 * (vs.length * vs.length) + vs.length ≤ 2 * (Node.compactCopies t).2 + 2 := by
  have h1 := under_cost hu rfl
  rw [joinCosts_append, joinCosts_append] at h1
  have h2 := joinCosts_siblings hv ([] ++ xs)
  omega

/-- **C86**: if the values of a tree have at most `m` characters, then `compact` has copied about `3 l² / 2 m` characters for any
value of `l` characters that it returns. -/
theorem C86_values {t : Node} {m : Nat} (hm : ∀ v ∈ leaves t, v.length ≤ m) {v : Str} (hv : v ∈ leaves t.compact) :
    3 * (v.length * v.length) ≤ 2 * (m * (Node.compactCopies t).2) + m * m := by
  cases t with
  | eof => cases hv
  | val w =>
    have h1 := hm v (by simpa [Node.compact, leaves] using hv)
    obtain rfl : v = w := by simpa [Node.compact, leaves] using hv
    have h2 : v.length * v.length ≤ m * v.length := Nat.mul_le_mul_right _ h1
    have h3 : m * v.length ≤ m * m := Nat.mul_le_mul_left _ h1
    rw [Node.compactCopies]
    dsimp only
    omega
  | rule n ns =>
    have := compacts_paid (m := m) (k := 0) (acc := []) (fun v hv => by cases hv) (ns := ns) (by simpa [leaves] using hm) v
      (by simpa [Node.compact, leaves] using hv)
    rw [Node.compactCopies]
    simpa using this

/-- **C86**: and never more than three times the longest value it returns, for each node. -/
theorem C86_bound {t : Node} {M : Nat} (hM : ∀ v ∈ leaves t.compact, v.length ≤ M) :
    (Node.compactCopies t).2 ≤ 3 * (M * treeSize t) := by
  cases t with
  | eof => exact Nat.zero_le _
  | val w =>
    have := hM w (by simp [Node.compact, leaves])
    rw [Node.compactCopies, treeSize]
    dsimp only
    omega
  | rule n ns =>
    have := compacts_bound (M := M) (acc := []) (ns := ns) (by simpa [NoLonger, Node.compact, leaves] using hM)
    rw [Node.compactCopies, treeSize, Nat.mul_add]
    dsimp only
    omega

/-- **C86**: for any rules, compacting a tree of `parse` copies at most quadratically many characters; and at least quadratically
many in the length of the longest value. -/
theorem C86_parse (R : SetOfRules) : ∃ K, ∀ s t, parse s R = .ok t →
    (Node.compactCopies t).2 ≤ K * (s.length + 1) ^ 2 ∧
    ∀ v ∈ leaves t.compact, v.length ^ 2 ≤ K * ((Node.compactCopies t).2 + 1) := by
  obtain ⟨W, hW⟩ := rules_bound (fun e => longest (effective e)) R
  obtain ⟨S, hS⟩ := C76_size R
  refine ⟨3 * W * S * S + 2 * W + W * W, fun s t h => ?_⟩
  have hl : ∀ v ∈ leaves t, v.length ≤ W := by
    have := peg_leaves_short (G := denotes R) (W := W) (fun n e hg => by
      obtain ⟨e', h1, rfl⟩ := Option.map_eq_some_iff.1 hg
      exact hW n e' h1) ((parse_iff _ _ _).1 h).2 rfl (by simp [longest])
    simpa [leavesL] using this
  have hs := hS s t h
  generalize treeSize t = z at hs ⊢
  constructor
  · have h1 := C86_bound (t := t) (M := W * treeSize t) (fun v hv => by
      have h2 := tree_text hl
      rw [← compact_text] at h2
      refine Nat.le_trans ?_ h2
      exact (List.sublist_flatten_of_mem hv).length_le)
    have hs := hS s t h
    generalize treeSize t = z at hs h1
    refine Nat.le_trans h1 ?_
    have h3 : W * z * z ≤ W * (S * (s.length + 1)) * (S * (s.length + 1)) := Nat.mul_le_mul (Nat.mul_le_mul_left _ hs) hs
    have h4 : W * (S * (s.length + 1)) * (S * (s.length + 1)) = W * S * S * (s.length + 1) ^ 2 := by
      rw [Nat.pow_two]; simp only [Nat.mul_assoc, Nat.mul_left_comm]
    have h5 : 3 * W * S * S * (s.length + 1) ^ 2 = 3 * (W * S * S * (s.length + 1) ^ 2) := by simp only [Nat.mul_assoc]
    rw [Nat.add_mul, Nat.add_mul, h5]
    omega
  · intro v hv
    have h1 := C86_values hl hv
    generalize (Node.compactCopies t).2 = c at h1
    have h2 : W * W ≤ W * W * (c + 1) := Nat.le_mul_of_pos_right _ (Nat.succ_pos _)
    rw [Nat.pow_two, Nat.add_mul, Nat.add_mul, Nat.mul_add (2 * W), Nat.mul_assoc 2 W c]
    omega

/-- `main = .*` -/
def dotsDoc : Doc := ⟨[], .one (.rule c!"main" [.sp] [.sp] (.one (.item (.star .dot) .nil)) ⟨[], .lf, []⟩)⟩

def dotsRules : SetOfRules := ⟨[(c!"main", .rep (.simple .dot) 0 none)]⟩

theorem dots_rules : rulesFromPeg c!"main = .*\n" = .ok dotsRules :=
  rules_of_doc (d := dotsDoc) (by decide +kernel) (by decide +kernel) (by decide +kernel) rfl

theorem chars_cost {s : Str} (hs : s ≠ []) : 2 * joinCosts [] (chars s) + 2 = 3 * (s.length * s.length) + s.length := by
  cases s with
  | nil => exact absurd rfl hs
  | cons c s =>
    have h := joinCosts_chars s ([] ++ [.val [c]]) (lastRun_val _ _)
    rw [lastRunLength_val] at h
    rw [chars, List.map_cons, joinCosts, joinCost, Nat.mul_add, h]
    simp [lastRun, lastRunLength, textL, leavesL, Nat.mul_add, Nat.add_mul]
    omega

/-- **C86**: the tree of `n` characters that `main = .*` gives: `(3 n² + n) / 2 - 1` characters are copied. -/
theorem C86_dots : ∃ R, rulesFromPeg c!"main = .*\n" = .ok R ∧ ∀ s, Ascii s → s ≠ [] →
    ∃ t, parse s R = .ok t ∧ 2 * (Node.compactCopies t).2 + 2 = 3 * (s.length * s.length) + s.length := by
  refine ⟨_, dots_rules, fun s ha hs => ⟨.rule c!"main" (chars s), ?_, ?_⟩⟩
  · exact (parse_iff _ _ _).2 ⟨ha, .call_ok rfl (dots_all s)⟩
  · rw [compactCopies_rule, chars_cost hs]

/-- **C86**: the calculator of README.md, whose example compacts the tree: a number of `n` digits. -/
theorem C86_number : ∃ R, rulesFromPeg Readme.calculator = .ok R ∧ ∀ s, Digits s →
    ∃ t, parse s R = .ok t ∧ 2 * (Node.compactCopies t).2 + 2 = 3 * (s.length * s.length) + s.length := by
  obtain ⟨R, hR, h⟩ := C60_calculator
  refine ⟨R, hR, fun s hs => ⟨_, (h s _).2 ⟨0, s, _, 0, by simp [spaces], by
    have := Addition.mk (.mk (.numeral (.whole hs)) .nil) .nil
    simpa using this, rfl⟩, ?_⟩⟩
  rw [← chars_cost (List.ne_nil_of_length_pos (List.length_pos_iff.2 hs.1)), compactCopies_rule]
  simp [joinCosts, joinCost, lastRun, lastRunLength, textL, leavesL, blank, spaces, chars]

/-! ### Concretely -/

example : Node.compactCopies (.rule c!"r" [.val c!"ab", .val c!"c", .rule c!"x" [], .val c!"d"]) =
    (.rule c!"r" [.val c!"abc", .rule c!"x" [], .val c!"d"], 2 + (2 + 3 + 3) + 3 + 1) := by
  simp [Node.compactCopies, Node.compactNodesCopies, Node.concatCopies, Node.lastLength]

/-- four characters: 1, 5, 8 and 11 -/
example : 2 * joinCosts [] (chars c!"abcd") + 2 = 52 := chars_cost (by decide)

example : ∃ R t, rulesFromPeg Readme.calculator = .ok R ∧ parse c!"12345678" R = .ok t ∧ (Node.compactCopies t).2 = 99 := by
  obtain ⟨R, hR, h⟩ := C86_number
  obtain ⟨t, h1, h2⟩ := h c!"12345678" ⟨by decide, by unfold Digit; decide⟩
  exact ⟨R, t, hR, h1, by simp at h2; omega⟩

end DP
