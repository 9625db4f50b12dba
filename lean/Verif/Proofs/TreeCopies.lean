/-
The characters that `compact` copies.
-/
import Verif.Model.TreeCopies
import Verif.Spec.TreeCopies
import Verif.Proofs.Glue

namespace DP
open Spec

mutual
theorem concatCopies_fst (acc : List Node) : ∀ n, (Node.concatCopies acc n).1 = Node.concatNodes acc n
  | .eof => by rw [Node.concatCopies, Node.concatNodes]
  | .val v => by
    rw [Node.concatCopies, Node.concatNodes]
    rcases acc.getLast? with _ | (_ | _ | _) <;> rfl
  | .rule n vn => by
    rw [Node.concatCopies, Node.concatNodes, ← compactNodesCopies_fst [] vn]
theorem compactNodesCopies_fst (acc : List Node) : ∀ ns, (Node.compactNodesCopies acc ns).1 = Node.compactNodes acc ns
  | [] => by rw [Node.compactNodesCopies, Node.compactNodes]
  | n :: ns => by
    rw [Node.compactNodesCopies, Node.compactNodes, ← concatCopies_fst acc n, ← compactNodesCopies_fst _ ns]
end

/-- the last node of `compact_nodes` is a value if the last one given is, and joins all those before it -/
theorem last_compacted (before : List Node) :
    (∀ v, (Node.compactNodes [] before).getLast? = some (.val v) → (lastRun before).isEmpty = false ∧ v.length = lastRunLength before) ∧
    ((∀ v, (Node.compactNodes [] before).getLast? ≠ some (.val v)) → (lastRun before).isEmpty = true) := by
  induction before using List.reverseRecOn with
  | nil => simp [Node.compactNodes, lastRun]
  | append_singleton ns n ih =>
    have e : Node.compactNodes [] (ns ++ [n]) = Node.concatNodes (Node.compactNodes [] ns) n := by
      rw [compactNodes_append]; simp only [Node.compactNodes]
    rw [e]
    cases n with
    | eof => simp [Node.concatNodes, lastRun]
    | rule m vn => simp [Node.concatNodes, lastRun]
    | val w =>
      have el : lastRun (ns ++ [.val w]) = .val w :: lastRun ns := by simp [lastRun]
      have et : lastRunLength (ns ++ [.val w]) = w.length + lastRunLength ns := by
        simp [lastRunLength, el, textL, leavesL, leaves]
      rw [Node.concatNodes, et, el]
      rcases hl : (Node.compactNodes [] ns).getLast? with _ | (u | ⟨m, vn⟩ | _)
      · have := ih.2 (by simp [hl])
        simp only [List.isEmpty_iff] at this
        simp [lastRunLength, this, textL, leavesL]
      · have := ih.1 u hl
        simp [← this.2, Nat.add_comm]
      · have := ih.2 (by simp [hl])
        simp only [List.isEmpty_iff] at this
        simp [lastRunLength, this, textL, leavesL]
      · have := ih.2 (by simp [hl])
        simp only [List.isEmpty_iff] at this
        simp [lastRunLength, this, textL, leavesL]

theorem lastLength_compacted (before : List Node) : Node.lastLength (Node.compactNodes [] before) = lastRunLength before := by
  have h := last_compacted before
  unfold Node.lastLength
  rcases hl : (Node.compactNodes [] before).getLast? with _ | (u | ⟨m, vn⟩ | _)
  · have := h.2 (by simp [hl])
    simp only [List.isEmpty_iff] at this
    simp [lastRunLength, this, textL, leavesL]
  · exact (h.1 u hl).2
  · have := h.2 (by simp [hl])
    simp only [List.isEmpty_iff] at this
    simp [lastRunLength, this, textL, leavesL]
  · have := h.2 (by simp [hl])
    simp only [List.isEmpty_iff] at this
    simp [lastRunLength, this, textL, leavesL]

mutual
theorem concatCopies_snd (before : List Node) : ∀ n, (Node.concatCopies (Node.compactNodes [] before) n).2 = joinCost before n
  | .eof => by rw [Node.concatCopies, joinCost, lastLength_compacted]
  | .val v => by
    have h := last_compacted before
    have h' := lastLength_compacted before
    rw [Node.concatCopies, joinCost]
    rcases hl : (Node.compactNodes [] before).getLast? with _ | (u | ⟨m, vn⟩ | _)
    · have := h.2 (by simp [hl])
      simp only [this]
      have : lastRunLength before = 0 := by rw [← h', Node.lastLength, hl]
      simp [h', this]
    · have := h.1 u hl
      simp [this.1, h', this.2]
      omega
    · have := h.2 (by simp [hl])
      simp only [this]
      have : lastRunLength before = 0 := by rw [← h', Node.lastLength, hl]
      simp [h', this]
    · have := h.2 (by simp [hl])
      simp only [this]
      have : lastRunLength before = 0 := by rw [← h', Node.lastLength, hl]
      simp [h', this]
  | .rule n vn => by
    have := compactNodesCopies_snd [] vn
    rw [Node.compactNodes] at this
    rw [Node.concatCopies, joinCost, ← this, lastLength_compacted]
theorem compactNodesCopies_snd (before : List Node) : ∀ ns,
    (Node.compactNodesCopies (Node.compactNodes [] before) ns).2 = joinCosts before ns
  | [] => by rw [Node.compactNodesCopies, joinCosts]
  | n :: ns => by
    have e : Node.compactNodes [] (before ++ [n]) = Node.concatNodes (Node.compactNodes [] before) n := by
      rw [compactNodes_append]; simp only [Node.compactNodes]
    rw [Node.compactNodesCopies, joinCosts, ← concatCopies_snd before n, ← compactNodesCopies_snd (before ++ [n]) ns, e,
      ← concatCopies_fst]
end

/-! ### Bounds -/

theorem joinCosts_append (before : List Node) (xs ys : List Node) :
    joinCosts before (xs ++ ys) = joinCosts before xs + joinCosts (before ++ xs) ys := by
  induction xs generalizing before with
  | nil => simp [joinCosts]
  | cons x xs ih => rw [List.cons_append, joinCosts, joinCosts, ih, Nat.add_assoc, List.append_assoc, List.singleton_append]

theorem lastRunLength_val (before : List Node) (v : Str) : lastRunLength (before ++ [.val v]) = v.length + lastRunLength before := by
  simp [lastRunLength, lastRun, textL, leavesL, leaves]

theorem lastRun_val (before : List Node) (v : Str) : (lastRun (before ++ [.val v])).isEmpty = false := by
  simp [lastRun]

/-- a run of single characters after a value: the exact number -/
theorem joinCosts_chars : ∀ (w : Str) (before : List Node), (lastRun before).isEmpty = false →
    2 * joinCosts before (w.map fun c => .val [c]) = 6 * (lastRunLength before * w.length) + 3 * (w.length * w.length) + w.length
  | [], before, _ => by simp [joinCosts]
  | c :: w, before, h => by
    rw [List.map_cons, joinCosts, joinCost, h, Nat.mul_add, joinCosts_chars w _ (lastRun_val _ _), lastRunLength_val]
    simp [Nat.mul_add, Nat.add_mul]
    omega

/-- a run of values that are not empty after a value: at least as many -/
theorem joinCosts_values : ∀ (vs : List Str) (before : List Node), (∀ v ∈ vs, v ≠ []) → (lastRun before).isEmpty = false →
    6 * (lastRunLength before * vs.length) + 3 * (vs.length * vs.length) + vs.length ≤ 2 * joinCosts before (vs.map .val)
  | [], before, _, _ => by simp
  | v :: vs, before, hv, h => by
    have ih := joinCosts_values vs (before ++ [.val v]) (fun u hu => hv u (.tail _ hu)) (lastRun_val _ _)
    have h1 : 1 ≤ v.length := List.length_pos_iff.2 (hv v List.mem_cons_self)
    have h2 : 1 * vs.length ≤ v.length * vs.length := Nat.mul_le_mul_right _ h1
    rw [List.map_cons, joinCosts, joinCost, h, Nat.mul_add]
    rw [lastRunLength_val, Nat.add_mul] at ih
    simp only [List.length_cons, Nat.mul_add, Nat.add_mul, Nat.mul_one, Nat.one_mul, Bool.false_eq_true, if_false]
    omega

theorem joinCosts_siblings {vs : List Str} (hv : ∀ v ∈ vs, v ≠ []) (before : List Node) :
    3 * (vs.length * vs.length) + vs.length ≤ 2 * joinCosts before (vs.map .val) + 2 := by
  cases hb : (lastRun before).isEmpty with
  | false => have := joinCosts_values vs before hv hb; omega
  | true =>
    cases vs with
    | nil => simp
    | cons v vs =>
      have ih := joinCosts_values vs (before ++ [.val v]) (fun u hu => hv u (.tail _ hu)) (lastRun_val _ _)
      have h1 : 1 ≤ v.length := List.length_pos_iff.2 (hv v List.mem_cons_self)
      have h2 : 1 * vs.length ≤ v.length * vs.length := Nat.mul_le_mul_right _ h1
      rw [List.map_cons, joinCosts, joinCost, hb, Nat.mul_add]
      rw [lastRunLength_val, Nat.add_mul] at ih
      simp only [List.length_cons, Nat.mul_add, Nat.add_mul, Nat.mul_one, Nat.one_mul, if_true]
      omega

theorem compactCopies_rule (n : Str) (ns : List Node) : (Node.compactCopies (.rule n ns)).2 = joinCosts [] ns := by
  have := compactNodesCopies_snd [] ns
  rw [Node.compactNodes] at this
  rw [Node.compactCopies, ← this]

theorem joinCosts_mem {n : Str} {ns : List Node} : ∀ {l before}, .rule n ns ∈ l → joinCosts [] ns ≤ joinCosts before l
  | [], _, h => by cases h
  | m :: l, before, h => by
    rw [joinCosts]
    cases h with
    | head => rw [joinCost]; omega
    | tail _ h => have := joinCosts_mem (before := before ++ [m]) h; omega

theorem under_cost {t u : Node} (h : Under t u) : ∀ {n ns}, u = .rule n ns → joinCosts [] ns ≤ (Node.compactCopies t).2 := by
  induction h with
  | refl t => rintro n ns rfl; rw [compactCopies_rule]
  | @child m ms t u hm hu ih =>
    intro n ns hn
    refine Nat.le_trans (ih hn) ?_
    rw [compactCopies_rule]
    cases hu with
    | refl => subst hn; rw [compactCopies_rule]; exact joinCosts_mem hm
    | child _ _ => rw [compactCopies_rule]; exact joinCosts_mem hm

/-- no value is longer than `M` -/
def NoLonger (M : Nat) (ns : List Node) : Prop := ∀ v ∈ leavesL ns, v.length ≤ M

theorem leavesL_append (xs ys : List Node) : leavesL (xs ++ ys) = leavesL xs ++ leavesL ys := by
  induction xs with
  | nil => rfl
  | cons x xs ih => rw [List.cons_append, leavesL, leavesL, ih, List.append_assoc]

theorem fits_append {M xs ys} : NoLonger M (xs ++ ys) ↔ NoLonger M xs ∧ NoLonger M ys := by
  simp only [NoLonger, leavesL_append, List.mem_append]
  exact ⟨fun h => ⟨fun v hv => h v (.inl hv), fun v hv => h v (.inr hv)⟩, fun h v hv => hv.elim (h.1 v) (h.2 v)⟩

theorem fits_val {M v} : NoLonger M [.val v] ↔ v.length ≤ M := by simp [NoLonger, leavesL, leaves]

theorem fits_rule {M n ns} : NoLonger M [.rule n ns] ↔ NoLonger M ns := by simp [NoLonger, leavesL, leaves]

theorem split_last {acc : List Node} {x : Node} (h : acc.getLast? = some x) : acc.dropLast ++ [x] = acc := by
  obtain ⟨h1, h2⟩ := List.getLast?_eq_some_iff.1 h
  subst h2
  simp

theorem fits_back {M acc} : ∀ {n}, NoLonger M (Node.concatNodes acc n) → NoLonger M acc
  | .eof, h => by rw [Node.concatNodes] at h; exact (fits_append.1 h).1
  | .rule n vn, h => by rw [Node.concatNodes] at h; exact (fits_append.1 h).1
  | .val v, h => by
    rw [Node.concatNodes] at h
    rcases hl : acc.getLast? with _ | (u | ⟨m, vn⟩ | _) <;> simp only [hl] at h
    · exact (fits_append.1 h).1
    · rw [← split_last hl]
      have := fits_append.1 h
      rw [fits_val, List.length_append] at this
      exact fits_append.2 ⟨this.1, fits_val.2 (by omega)⟩
    · exact (fits_append.1 h).1
    · exact (fits_append.1 h).1

theorem fits_backs {M} : ∀ {ns acc}, NoLonger M (Node.compactNodes acc ns) → NoLonger M acc
  | [], acc, h => by rwa [Node.compactNodes] at h
  | n :: ns, acc, h => by rw [Node.compactNodes] at h; exact fits_back (fits_backs h)

theorem lastLength_fits {M acc} (h : NoLonger M acc) : Node.lastLength acc ≤ M := by
  unfold Node.lastLength
  split
  · rename_i v hl
    rw [← split_last hl] at h
    exact fits_val.1 (fits_append.1 h).2
  · omega

mutual
theorem concat_bound {M acc} : ∀ {n}, NoLonger M (Node.concatNodes acc n) → (Node.concatCopies acc n).2 ≤ 3 * (M * treeSize n)
  | .eof, h => by
    have := lastLength_fits (fits_back h)
    rw [Node.concatCopies, treeSize, Nat.mul_one]
    omega
  | .val v, h => by
    have h1 := lastLength_fits (fits_back h)
    rw [Node.concatCopies, treeSize, Nat.mul_one]
    rw [Node.concatNodes] at h
    rcases hl : acc.getLast? with _ | (u | ⟨m, vn⟩ | _) <;> simp only [hl] at h <;> rw [fits_append, fits_val] at h <;>
      dsimp only <;> omega
  | .rule n vn, h => by
    have h1 := lastLength_fits (fits_back h)
    rw [Node.concatCopies, treeSize]
    rw [Node.concatNodes, fits_append, fits_rule] at h
    have h2 := compacts_bound h.2
    rw [Nat.mul_add, Nat.mul_one]
    dsimp only
    omega
theorem compacts_bound {M acc} : ∀ {ns}, NoLonger M (Node.compactNodes acc ns) →
    (Node.compactNodesCopies acc ns).2 ≤ 3 * (M * forestSize ns)
  | [], _ => by rw [Node.compactNodesCopies]; exact Nat.zero_le _
  | n :: ns, h => by
    rw [Node.compactNodes] at h
    have h1 := concat_bound (fits_backs h)
    rw [← concatCopies_fst] at h
    have h2 := compacts_bound h
    rw [Node.compactNodesCopies, forestSize, Nat.mul_add]
    dsimp only
    omega
end

/-- `k` copied characters account for the values of `ns`, which are made from pieces of at most `m` characters -/
def Paid (m k : Nat) (ns : List Node) : Prop := ∀ v ∈ leavesL ns, 3 * (v.length * v.length) ≤ 2 * (m * k) + m * m

theorem paid_append {m k xs ys} : Paid m k (xs ++ ys) ↔ Paid m k xs ∧ Paid m k ys := by
  simp only [Paid, leavesL_append, List.mem_append]
  exact ⟨fun h => ⟨fun v hv => h v (.inl hv), fun v hv => h v (.inr hv)⟩, fun h v hv => hv.elim (h.1 v) (h.2 v)⟩

theorem paid_val {m k v} : Paid m k [.val v] ↔ 3 * (v.length * v.length) ≤ 2 * (m * k) + m * m := by simp [Paid, leavesL, leaves]

theorem paid_rule {m k n ns} : Paid m k [.rule n ns] ↔ Paid m k ns := by simp [Paid, leavesL, leaves]

theorem Paid.mono {m k k' ns} (h : Paid m k ns) (hk : k ≤ k') : Paid m k' ns := fun v hv => by
  have := h v hv
  have := Nat.mul_le_mul_left m hk
  omega

mutual
theorem concat_paid {m k acc} (hp : Paid m k acc) : ∀ {n}, (∀ v ∈ leaves n, v.length ≤ m) →
    Paid m (k + (Node.concatCopies acc n).2) (Node.concatNodes acc n)
  | .eof, _ => by
    rw [Node.concatNodes, paid_append]
    exact ⟨hp.mono (Nat.le_add_right _ _), fun v hv => by simp [leavesL, leaves] at hv⟩
  | .rule n vn, h => by
    have ih := compacts_paid (m := m) (k := 0) (acc := []) (fun v hv => by cases hv) (ns := vn) (by simpa [leaves] using h)
    rw [Node.concatCopies, Node.concatNodes, paid_append, paid_rule]
    exact ⟨hp.mono (Nat.le_add_right _ _), ih.mono (by dsimp only; omega)⟩
  | .val v, h => by
    have ha : v.length ≤ m := h v (by simp [leaves])
    have h1 : v.length * v.length ≤ m * v.length := Nat.mul_le_mul_right _ ha
    have h2 : m * v.length ≤ m * m := Nat.mul_le_mul_left _ ha
    have alone : Paid m (k + (Node.lastLength acc + v.length)) (acc ++ [.val v]) := by
      rw [paid_append, paid_val]
      refine ⟨hp.mono (Nat.le_add_right _ _), ?_⟩
      simp only [Nat.mul_add]
      omega
    rw [Node.concatCopies, Node.concatNodes]
    rcases hl : acc.getLast? with _ | (u | ⟨r, vn⟩ | _)
    · exact alone
    · have hs := hp
      rw [← split_last hl, paid_append, paid_val] at hs
      have e : Node.lastLength acc = u.length := by rw [Node.lastLength, hl]
      dsimp only
      rw [paid_append, paid_val]
      refine ⟨hs.1.mono (Nat.le_add_right _ _), ?_⟩
      have h3 : u.length * v.length ≤ u.length * m := Nat.mul_le_mul_left _ ha
      rw [e, List.length_append]
      simp only [Nat.mul_add, Nat.add_mul]
      rw [Nat.mul_comm v.length u.length, Nat.mul_comm m u.length]
      omega
    · exact alone
    · exact alone
theorem compacts_paid {m k acc} (hp : Paid m k acc) : ∀ {ns}, (∀ v ∈ leavesL ns, v.length ≤ m) →
    Paid m (k + (Node.compactNodesCopies acc ns).2) (Node.compactNodes acc ns)
  | [], _ => by rw [Node.compactNodesCopies, Node.compactNodes]; exact hp
  | n :: ns, h => by
    have h1 := concat_paid hp (n := n) (fun v hv => h v (by rw [leavesL]; exact List.mem_append_left _ hv))
    have h2 := compacts_paid h1 (ns := ns) (fun v hv => h v (by rw [leavesL]; exact List.mem_append_right _ hv))
    rw [Node.compactNodesCopies, Node.compactNodes]
    dsimp only
    rw [concatCopies_fst]
    rwa [Nat.add_assoc] at h2
end

/-! ### The values of the trees of `parse` -/

mutual
/-- the longest literal, but at least the 3 characters of "EOF" -/
def longest : Expr → Nat
  | .simple (.literal l) => l.length + 3
  | .simple _ => 3
  | .and es => longests es
  | .or es => longests es
  | .not _ => 0
  | .rep e _ _ => longest e
  | .ruleName _ => 0
def longests : List Expr → Nat
  | [] => 0
  | e :: es => max (longest e) (longests es)
end

theorem peg_leaves_short {G : Str → Option Expr} {W : Nat} (hG : ∀ n e, G n = some e → longest e ≤ W) {e s o} (h : Peg G e s o) :
    ∀ {r ns}, o = .ok r ns → longest e ≤ W → ∀ v ∈ leavesL ns, v.length ≤ W := by
  have both : ∀ {xs ys : List Node}, (∀ v ∈ leavesL xs, v.length ≤ W) → (∀ v ∈ leavesL ys, v.length ≤ W) →
      ∀ v ∈ leavesL (xs ++ ys), v.length ≤ W := fun h1 h2 => fits_append.2 ⟨h1, h2⟩
  induction h with
  | lit_ok l r => intro r ns ho hW v hv; cases ho; simp [leavesL, leaves] at hv; subst hv; rw [longest] at hW; omega
  | class_ok _ _ c r _ => intro r ns ho hW v hv; cases ho; simp [leavesL, leaves] at hv; subst hv; simp [longest] at hW ⊢; omega
  | dot_ok c r => intro r ns ho hW v hv; cases ho; simp [leavesL, leaves] at hv; subst hv; simp [longest] at hW ⊢; omega
  | eof_ok => intro r ns ho hW v hv; cases ho; simp [leavesL, leaves] at hv; subst hv; simp [longest] at hW ⊢; omega
  | call_ok hg _ ih => intro r ns ho _ v hv; cases ho; exact ih rfl (hG _ _ hg) v (by simpa [leavesL, leaves] using hv)
  | and_ok _ _ ih1 ih2 =>
    intro r ns ho hW
    cases ho
    rw [longest, longests] at hW
    exact both (ih1 rfl (by omega)) (ih2 rfl (by rw [longest]; omega))
  | rep_more _ _ _ ih1 ih2 =>
    intro r ns ho hW
    cases ho
    rw [longest] at hW
    exact both (ih1 rfl hW) (ih2 rfl (by rw [longest]; exact hW))
  | or_ok _ ih => intro r ns ho hW; rw [longest, longests] at hW; exact ih ho (by omega)
  | or_next _ _ _ ih => intro r ns ho hW; rw [longest, longests] at hW; exact ih ho (by rw [longest]; omega)
  | and_nil | not_fail | not_crit | rep_full | rep_stop => intro r ns ho _ v hv; cases ho; cases hv
  | _ => intro r ns ho; cases ho

mutual
theorem tree_text {W : Nat} : ∀ {t : Node}, (∀ v ∈ leaves t, v.length ≤ W) → (text t).length ≤ W * treeSize t
  | .val v, h => by simpa [text, leaves, treeSize] using h
  | .eof, _ => by simp [text, leaves]
  | .rule n ns, h => by
    have := forest_text (W := W) (ns := ns) (by simpa [leaves] using h)
    rw [treeSize, Nat.mul_add]
    simp only [text, textL, leaves] at this ⊢
    omega
theorem forest_text {W : Nat} : ∀ {ns : List Node}, (∀ v ∈ leavesL ns, v.length ≤ W) → (textL ns).length ≤ W * forestSize ns
  | [], _ => by simp [textL, leavesL]
  | n :: ns, h => by
    have h1 := tree_text (W := W) (t := n) (fun v hv => h v (by rw [leavesL]; exact List.mem_append_left _ hv))
    have h2 := forest_text (W := W) (ns := ns) (fun v hv => h v (by rw [leavesL]; exact List.mem_append_right _ hv))
    rw [forestSize, Nat.mul_add]
    simp only [text, textL, leavesL, List.flatten_append, List.length_append] at h1 h2 ⊢
    omega
end

mutual
theorem concat_text (acc : List Node) : ∀ n, textL (Node.concatNodes acc n) = textL acc ++ text n
  | .eof => by simp [Node.concatNodes, textL, leavesL_append, leavesL, leaves, text]
  | .rule n vn => by
    have := compacts_text [] vn
    simp only [textL, leavesL, List.flatten_nil, List.nil_append] at this
    simp [Node.concatNodes, textL, leavesL_append, leavesL, leaves, text, this]
  | .val v => by
    rw [Node.concatNodes]
    rcases hl : acc.getLast? with _ | (u | ⟨r, vn⟩ | _)
    · simp [textL, leavesL_append, leavesL, leaves, text]
    · conv_rhs => rw [← split_last hl]
      simp [textL, leavesL_append, leavesL, leaves, text]
    · simp [textL, leavesL_append, leavesL, leaves, text]
    · simp [textL, leavesL_append, leavesL, leaves, text]
theorem compacts_text (acc : List Node) : ∀ ns, textL (Node.compactNodes acc ns) = textL acc ++ textL ns
  | [] => by simp [Node.compactNodes, textL, leavesL]
  | n :: ns => by
    rw [Node.compactNodes, compacts_text _ ns, concat_text]
    simp [textL, leavesL, text]
end

theorem compact_text (t : Node) : text t.compact = text t := by
  cases t with
  | val v => rfl
  | eof => rfl
  | rule n ns => simpa [Node.compact, text, leaves, textL, leavesL] using compacts_text [] ns

end DP
