/-
What the consumers may rely on: the flat AST of an accepted PEG text has well-formed symbols, escapes and
classes.
-/
import Verif.Proofs.PegShape

namespace DP
open Spec PegRules

/-- a condition on the first nodes of a flat AST -/
def HeadOK : List FNode → Prop
  | .beginRule n :: rest =>
    (n = c!"hex_char" → ∃ a b q, HexChar a ∧ HexChar b ∧ rest = .val ['\\', '0', 'x', a, b] :: q) ∧
    (n = c!"symbol" → ∃ v q, ValidSymbol v ∧ rest = .val v :: q) ∧
    (n = c!"match" → ∃ cs rs q, ValidClass cs rs ∧
      rest = .val c!"[" :: (classFlat cs rs ++ .val c!"]" :: q))
  | .val v :: _ => Ascii v
  | _ => True

theorem HeadOK.append {m b} (hm : m ≠ []) (h : HeadOK m) : HeadOK (m ++ b) := by
  cases m with
  | nil => exact absurd rfl hm
  | cons x m =>
    cases x with
    | beginRule n =>
      obtain ⟨h1, h2, h3⟩ := h
      refine ⟨fun hn => ?_, fun hn => ?_, fun hn => ?_⟩
      · obtain ⟨a, c, q, ha, hc, rfl⟩ := h1 hn
        exact ⟨a, c, q ++ b, ha, hc, rfl⟩
      · obtain ⟨v, q, hv, rfl⟩ := h2 hn
        exact ⟨v, q ++ b, hv, rfl⟩
      · obtain ⟨cs, rs, q, hv, rfl⟩ := h3 hn
        exact ⟨cs, rs, q ++ b, hv, by simp⟩
    | val v => exact h
    | _ => trivial

/-- the condition holds at every point -/
def FlatOK (nodes : List FNode) : Prop := ∀ m, m <:+ nodes → HeadOK m

theorem FlatOK.suffix {a b} (h : FlatOK a) (hs : b <:+ a) : FlatOK b := fun m hm => h m (hm.trans hs)

theorem FlatOK.nil : FlatOK [] := by
  intro m hm
  rw [List.suffix_nil.mp hm]
  trivial

theorem FlatOK.cons {x l} (h : HeadOK (x :: l)) (hl : FlatOK l) : FlatOK (x :: l) := by
  intro m hm
  rcases List.suffix_cons_iff.mp hm with rfl | hm
  · exact h
  · exact hl m hm

theorem FlatOK.append {a b} (ha : FlatOK a) (hb : FlatOK b) : FlatOK (a ++ b) := by
  induction a with
  | nil => exact hb
  | cons x a ih =>
    have h1 : FlatOK a := ha.suffix (List.suffix_cons x a)
    exact FlatOK.cons (HeadOK.append (by simp) (ha _ (List.suffix_refl _))) (ih h1)

theorem FlatOK.rule {n ns} (h : HeadOK (flatRule n ns)) (hl : FlatOK (flatList ns)) : FlatOK (flatRule n ns) := by
  unfold flatRule at h ⊢
  split
  · exact FlatOK.nil
  · next hb =>
    rw [if_neg hb] at h
    exact FlatOK.cons h (hl.append (FlatOK.cons trivial FlatOK.nil))

theorem flatList_val_val (v w rest) : flatList (.val v :: .val w :: rest) = flatList (.val (v ++ w) :: rest) := by
  unfold flatList
  rw [Node.compactNodes, Node.concatNodes]
  simp only [List.getLast?_nil, List.nil_append]
  rw [Node.compactNodes, Node.concatNodes]
  simp only [List.getLast?_singleton, List.dropLast_singleton, List.nil_append]
  rw [Node.compactNodes, Node.concatNodes]
  rfl

theorem flatList_eof (rest) : flatList (.eof :: rest) = flatList rest := by
  unfold flatList
  rw [Node.compactNodes, Node.concatNodes, compactNodes_acc _ _ (Or.inr (by simp)), List.nil_append,
    List.singleton_append, Node.pruneList, if_pos (by simp [Node.isNamedIn]), flattenFold_cons, Node.prune,
    flatten_eof]
  rfl

theorem flatList_ok : ∀ (k : Nat) (ns : List Node), ns.length ≤ k →
    (∀ n cs, Node.rule n cs ∈ ns → FlatOK (flatRule n cs)) → (∀ v, Node.val v ∈ ns → Ascii v) →
    FlatOK (flatList ns) := by
  intro k
  induction k with
  | zero =>
    intro ns hk _ _
    have : ns = [] := by simpa using hk
    rw [this, flatList_nil]
    exact FlatOK.nil
  | succ k ih =>
    intro ns hk hr hv
    match ns with
    | [] => rw [flatList_nil]; exact FlatOK.nil
    | .rule n cs :: rest =>
      rw [flatList_rule]
      exact (hr n cs (by simp)).append (ih rest (by simp at hk; omega)
        (fun n cs h => hr n cs (by simp [h])) (fun v h => hv v (by simp [h])))
    | .eof :: rest =>
      rw [flatList_eof]
      exact ih rest (by simp at hk; omega)
        (fun n cs h => hr n cs (by simp [h])) (fun v h => hv v (by simp [h]))
    | .val v :: .val w :: rest =>
      rw [flatList_val_val]
      refine ih _ (by simp at hk ⊢; omega) (fun n cs h => hr n cs ?_) (fun x h => ?_)
      · simpa using h
      · rcases List.mem_cons.mp h with h | h
        · cases h
          intro c hc
          rcases List.mem_append.mp hc with hc | hc
          · exact hv v (by simp) c hc
          · exact hv w (by simp) c hc
        · exact hv x (by simp [h])
    | [.val v] =>
      rw [flatList_val (by simp), flatList_nil]
      exact FlatOK.cons (hv v (by simp)) FlatOK.nil
    | .val v :: .rule n cs :: rest =>
      rw [flatList_val (by simp)]
      exact FlatOK.cons (hv v (by simp)) (ih _ (by simp at hk ⊢; omega)
        (fun n cs h => hr n cs (by simp at h ⊢; tauto)) (fun v h => hv v (by simp at h ⊢; tauto)))
    | .val v :: .eof :: rest =>
      rw [flatList_val (by simp)]
      exact FlatOK.cons (hv v (by simp)) (ih _ (by simp at hk ⊢; omega)
        (fun n cs h => hr n cs (by simp at h ⊢; tauto)) (fun v h => hv v (by simp at h ⊢; tauto)))

theorem Under.trans {a b c : Node} (h1 : Under a b) (h2 : Under b c) : Under a c := by
  induction h1 with
  | refl => exact h2
  | child hm _ ih => exact .child hm (ih h2)

mutual
theorem node_flatOK : ∀ t : Node, (∀ n cs, Under t (.rule n cs) → HeadOK (flatRule n cs)) →
    (∀ v, Under t (.val v) → Ascii v) → ∀ n cs, t = .rule n cs → FlatOK (flatRule n cs)
  | .rule m ds, h, hv, n, cs, e => by
    cases e
    refine FlatOK.rule (h m ds (.refl _)) ?_
    refine flatList_ok _ ds (Nat.le_refl _) ?_ (fun v hm => hv v (.child hm (.refl _)))
    exact nodes_flatOK ds (fun t ht n cs hu => h n cs (.child ht hu)) (fun t ht v hu => hv v (.child ht hu))
  | .val _, _, _, _, _, e => by cases e
  | .eof, _, _, _, _, e => by cases e
theorem nodes_flatOK : ∀ ts : List Node, (∀ t ∈ ts, ∀ n cs, Under t (.rule n cs) → HeadOK (flatRule n cs)) →
    (∀ t ∈ ts, ∀ v, Under t (.val v) → Ascii v) → ∀ n cs, Node.rule n cs ∈ ts → FlatOK (flatRule n cs)
  | [], _, _, _, _, hm => by cases hm
  | t :: ts, h, hv, n, cs, hm => by
    rcases List.mem_cons.mp hm with hm | hm
    · exact node_flatOK t (h t (by simp)) (hv t (by simp)) n cs hm.symm
    · exact nodes_flatOK ts (fun t ht => h t (by simp [ht])) (fun t ht => hv t (by simp [ht])) n cs hm
end

theorem under_val_leaf {t u : Node} (h : Under t u) : ∀ v, u = .val v → v ∈ leaves t := by
  induction h with
  | refl t => intro v e; subst e; simp [leaves]
  | @child n ns t u hm _ ih =>
    intro v e
    have h1 := ih v e
    rw [leaves]
    clear ih
    induction ns with
    | nil => cases hm
    | cons x ns ih2 =>
      rw [leavesL]
      rcases List.mem_cons.mp hm with rfl | hm
      · simp [h1]
      · simp [ih2 hm]

/-- the flat AST of an accepted PEG text is well formed -/
theorem peg_flatOK {s t} (h : parse s PegRules.parsePeg = .ok t) : FlatOK (pegFlat t) := by
  obtain ⟨hp, ha, ht, cs, rfl⟩ := peg_parse_ok h
  have hmain : flatRule c!"main" cs = pegFlat (.rule c!"main" cs) := by
    rw [pegFlat_rule, flatRule, if_neg (by decide)]
  rw [← hmain]
  refine node_flatOK (.rule c!"main" cs) ?_ ?_ _ _ rfl
  · intro n ds hu
    obtain ⟨e', s', r', hg, hs, hd⟩ := peg_under hp rfl _ (by simp) n ds hu
    have has : Ascii s' := fun c hc => ha c (hs.subset hc)
    unfold flatRule
    by_cases hb : n ∈ blanks
    · rw [if_pos hb]; trivial
    · rw [if_neg hb]
      refine ⟨?_, ?_, ?_⟩
      · rintro rfl
        rw [gp_hex_char] at hg
        cases hg
        obtain ⟨a, b, h1, h2, h3⟩ := hex_shape hd
        exact ⟨a, b, _, h1, h2, by rw [h3]; rfl⟩
      · rintro rfl
        rw [gp_symbol] at hg
        cases hg
        obtain ⟨v, h1, _, h3⟩ := symbol_shape hd
        exact ⟨v, _, h1, by rw [h3]; rfl⟩
      · rintro rfl
        rw [gp_match] at hg
        cases hg
        obtain ⟨cs, rs, h1, _, h3⟩ := match_shape has hd
        exact ⟨cs, rs, [.endRule c!"match"], h1, by rw [h3]; simp⟩
  · intro v hu c hc
    apply ha
    rw [← ht]
    exact List.mem_flatten.mpr ⟨v, under_val_leaf hu v rfl, hc⟩

end DP
