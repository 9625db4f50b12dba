/-
C24-C29: the AST transformations.
-/
import Verif.Props.Core
import Verif.Spec.Ast

namespace DP
open Spec

/-- names below the root of a document, with the root left out -/
theorem any_eq_mem (names : List Str) (n : Str) : (names.any (fun x => x == n)) = decide (n ∈ names) := by
  rw [Bool.eq_iff_iff]
  simp

/-! ### outlines determine trees -/

mutual
theorem outline_anc (anc : List Str) : ∀ t x, x ∈ outline anc t → ∃ l, x.1 = anc ++ l
  | .val v, x, h => by simp [outline] at h; exact ⟨[], by simp [h]⟩
  | .eof, x, h => by simp [outline] at h; exact ⟨[], by simp [h]⟩
  | .rule n ns, x, h => by
    simp only [outline, List.mem_cons] at h
    rcases h with rfl | h
    · exact ⟨[], by simp⟩
    · obtain ⟨l, hl⟩ := outlineL_anc _ ns x h
      exact ⟨n :: l, by rw [hl]; simp⟩
theorem outlineL_anc (anc : List Str) : ∀ ts x, x ∈ outlineL anc ts → ∃ l, x.1 = anc ++ l
  | [], x, h => by simp [outlineL] at h
  | t :: ts, x, h => by
    rw [outlineL, List.mem_append] at h
    rcases h with h | h
    · exact outline_anc anc t x h
    · exact outlineL_anc anc ts x h
end

theorem outlineL_head (anc : List Str) : ∀ ts, outlineL anc ts = [] ∨
    ∃ i rest, outlineL anc ts = (anc, i) :: rest
  | [] => Or.inl rfl
  | t :: ts => by cases t <;> simp [outlineL, outline]

/-- cut a list at the first element that leaves the subtree -/
theorem split_unique {α : Type} {p : α → Prop} : ∀ {a a' b b' : List α}, (∀ x ∈ a, p x) → (∀ x ∈ a', p x) →
    (b = [] ∨ ∃ x r, b = x :: r ∧ ¬ p x) → (b' = [] ∨ ∃ x r, b' = x :: r ∧ ¬ p x) →
    a ++ b = a' ++ b' → a = a' ∧ b = b' := by
  intro a
  induction a with
  | nil =>
    intro a' b b' _ ha' hb _ h
    cases a' with
    | nil => exact ⟨rfl, h⟩
    | cons x a' =>
      rcases hb with rfl | ⟨y, r, rfl, hy⟩
      · simp at h
      · simp only [List.nil_append, List.cons_append, List.cons.injEq] at h
        exact absurd (ha' x (by simp)) (h.1 ▸ hy)
  | cons x a ih =>
    intro a' b b' ha ha' hb hb' h
    cases a' with
    | nil =>
      rcases hb' with rfl | ⟨y, r, rfl, hy⟩
      · simp at h
      · simp only [List.nil_append, List.cons_append, List.cons.injEq] at h
        exact absurd (ha x (by simp)) (h.1 ▸ hy)
    | cons y a' =>
      simp only [List.cons_append, List.cons.injEq] at h
      obtain ⟨h1, h2⟩ := ih (fun z hz => ha z (by simp [hz])) (fun z hz => ha' z (by simp [hz])) hb hb' h.2
      exact ⟨by rw [h.1, h1], h2⟩

theorem outlineL_inj (anc : List Str) : ∀ ts ts', outlineL anc ts = outlineL anc ts' → ts = ts'
  | [], [], _ => rfl
  | [], t' :: _, h => by cases t' <;> simp [outlineL, outline] at h
  | t :: _, [], h => by cases t <;> simp [outlineL, outline] at h
  | .val v :: ts, t' :: ts', h => by
    cases t' with
    | val v' =>
      simp [outlineL, outline] at h
      rw [h.1, outlineL_inj anc ts ts' h.2]
    | _ => simp [outlineL, outline] at h
  | .eof :: ts, t' :: ts', h => by
    cases t' with
    | eof =>
      simp [outlineL, outline] at h
      rw [outlineL_inj anc ts ts' h]
    | _ => simp [outlineL, outline] at h
  | .rule n ns :: ts, t' :: ts', h => by
    cases t' with
    | rule n' ns' =>
      simp only [outlineL, outline, List.cons_append, List.cons.injEq, Prod.mk.injEq, Item.rule.injEq,
        true_and] at h
      obtain ⟨rfl, h⟩ := h
      have hp : ∀ ms, ∀ x ∈ outlineL (anc ++ [n]) ms, x.1 ≠ anc := by
        intro ms x hx he
        obtain ⟨l, hl⟩ := outlineL_anc _ ms x hx
        rw [he] at hl
        have := congrArg List.length hl
        simp at this
      have hh : ∀ ms, outlineL anc ms = [] ∨ ∃ x r, outlineL anc ms = x :: r ∧ ¬ (x.1 ≠ anc) := by
        intro ms
        rcases outlineL_head anc ms with h | ⟨i, r, h⟩
        · exact Or.inl h
        · exact Or.inr ⟨_, r, h, by simp⟩
      obtain ⟨h1, h2⟩ := split_unique (p := fun x => x.1 ≠ anc) (hp ns) (hp ns') (hh ts) (hh ts') h
      rw [outlineL_inj _ ns ns' h1, outlineL_inj anc ts ts' h2]
    | _ => simp [outlineL, outline] at h

theorem outline_inj {anc : List Str} {t t' : Node} (h : outline anc t = outline anc t') : t = t' := by
  have := outlineL_inj anc [t] [t'] (by simp [outlineL, h])
  simpa using this

/-! ### C24 -/

theorem outlineL_append (anc) : ∀ ts ts', outlineL anc (ts ++ ts') = outlineL anc ts ++ outlineL anc ts'
  | [], ts' => rfl
  | t :: ts, ts' => by rw [List.cons_append, outlineL, outlineL, outlineL_append anc ts ts', List.append_assoc]

/-- below a removed node nothing survives -/
theorem filter_pruned {names : List Str} {n : Str} (hn : n ∈ names) (anc ts) :
    (outlineL (anc ++ [n]) ts).filter (fun x => decide (Survives names x)) = [] := by
  rw [List.filter_eq_nil_iff]
  intro x hx hs
  obtain ⟨l, hl⟩ := outlineL_anc _ ts x hx
  have := (of_decide_eq_true hs).1 n (by rw [hl]; simp)
  exact this hn

theorem prune_outlineL {names : List Str} : ∀ (anc : List Str) (ts : List Node), (∀ a ∈ anc, a ∉ names) →
    outlineL anc (Node.pruneList names ts) =
      (outlineL anc ts).filter (fun x => decide (Survives names x))
  | anc, [], _ => by simp [Node.pruneList, outlineL]
  | anc, .val v :: ts, h => by
    have hs : Survives names (anc, .val v) := ⟨h, by simp⟩
    have hl : Node.pruneList names (.val v :: ts) = .val v :: Node.pruneList names ts := by
      rw [Node.pruneList, Node.prune, if_pos (by simp [Node.isNamedIn])]
    rw [hl, outlineL, outline, prune_outlineL anc ts h, outlineL, outline, List.filter_append,
      List.filter_cons_of_pos (by simpa using hs)]
    rfl
  | anc, .eof :: ts, h => by
    have hs : Survives names (anc, .eof) := ⟨h, by simp⟩
    have hl : Node.pruneList names (.eof :: ts) = .eof :: Node.pruneList names ts := by
      rw [Node.pruneList, Node.prune, if_pos (by simp [Node.isNamedIn])]
    rw [hl, outlineL, outline, prune_outlineL anc ts h, outlineL, outline, List.filter_append,
      List.filter_cons_of_pos (by simpa using hs)]
    rfl
  | anc, .rule n ns :: ts, h => by
    simp only [Node.pruneList, Node.isNamedIn, any_eq_mem, outlineL, outline, List.filter_append]
    by_cases hn : n ∈ names
    · have hs : ¬ Survives names (anc, .rule n) := fun hs => hs.2 n rfl hn
      rw [if_neg (by simp [hn]), prune_outlineL anc ts h, List.filter_cons_of_neg (by simpa using hs),
        filter_pruned hn]
      rfl
    · have hs : Survives names (anc, .rule n) := ⟨h, by intro m hm; cases hm; exact hn⟩
      rw [if_pos (by simp [hn]), outlineL, Node.prune, outline, prune_outlineL anc ts h,
        prune_outlineL (anc ++ [n]) ns (by
          intro a ha
          rcases List.mem_append.mp ha with ha | ha
          · exact h a ha
          · simp at ha; exact ha ▸ hn), List.filter_cons_of_pos (by simpa using hs)]

/-- **C24**: `prune` keeps the root and, below it, exactly the nodes that are neither a rule named in
`names` nor below one, in the same order and nesting (an outline determines the tree, `outline_inj`). -/
theorem C24_prune_removes_exactly_named_subtrees (names : List Str) (r : Str) (ts : List Node) :
    ∃ ts', Node.prune names (.rule r ts) = .rule r ts' ∧
      outlineL [] ts' = (outlineL [] ts).filter (fun x => decide (Survives names x)) :=
  ⟨Node.pruneList names ts, by rw [Node.prune], prune_outlineL [] ts (by simp)⟩

/-- **C24**: a leaf is its own pruning. -/
theorem C24_prune_leaf (names : List Str) : (∀ v, Node.prune names (.val v) = .val v) ∧
    Node.prune names .eof = .eof := ⟨fun v => by rw [Node.prune], by rw [Node.prune]⟩

/-- the nodes strictly below `t` -/
def Below (t u : Node) : Prop := ∃ n ns c, t = .rule n ns ∧ c ∈ ns ∧ Under c u

mutual
theorem mem_outline_of_under {anc : List Str} : ∀ {t u m ms}, Under t u → u = .rule m ms →
    ∃ a, (a, Item.rule m) ∈ outline anc t := by
  intro t u m ms h hu
  induction h generalizing anc with
  | refl t => subst hu; exact ⟨anc, by simp [outline]⟩
  | @child n ns t u hm _ ih =>
    obtain ⟨a, ha⟩ := ih (anc := anc ++ [n]) hu
    refine ⟨a, ?_⟩
    rw [outline]
    refine List.mem_cons_of_mem _ ?_
    clear ih
    induction ns with
    | nil => cases hm
    | cons x ns ih2 =>
      rw [outlineL, List.mem_append]
      rcases List.mem_cons.mp hm with rfl | hm
      · exact Or.inl ha
      · exact Or.inr (ih2 hm)
end

theorem mem_outlineL_of_under {anc : List Str} {ts : List Node} {c m ms} (hc : c ∈ ts)
    (h : Under c (.rule m ms)) : ∃ a, (a, Item.rule m) ∈ outlineL anc ts := by
  obtain ⟨a, ha⟩ := mem_outline_of_under (anc := anc) h rfl
  refine ⟨a, ?_⟩
  induction ts with
  | nil => cases hc
  | cons x ts ih =>
    rw [outlineL, List.mem_append]
    rcases List.mem_cons.mp hc with rfl | hc
    · exact Or.inl ha
    · exact Or.inr (ih hc)

/-- **C24**: no removed name is left below the root. -/
theorem C24_no_removed_name_below_root (names : List Str) (t : Node) (m : Str) (ms : List Node)
    (h : Below (Node.prune names t) (.rule m ms)) : m ∉ names := by
  cases t with
  | val v => rw [Node.prune] at h; obtain ⟨_, _, _, h, _⟩ := h; cases h
  | eof => rw [Node.prune] at h; obtain ⟨_, _, _, h, _⟩ := h; cases h
  | rule r ts =>
    rw [Node.prune] at h
    obtain ⟨_, _, c, h, hc, hu⟩ := h
    cases h
    obtain ⟨a, ha⟩ := mem_outlineL_of_under (anc := []) hc hu
    rw [prune_outlineL [] ts (by simp), List.mem_filter] at ha
    exact (of_decide_eq_true ha.2).2 m rfl

/-- **C24**: pruning twice is pruning all the names at once. -/
theorem C24_prune_twice (a b : List Str) (t : Node) :
    Node.prune b (Node.prune a t) = Node.prune (a ++ b) t := by
  cases t with
  | val v => rw [Node.prune, Node.prune, Node.prune]
  | eof => rw [Node.prune, Node.prune, Node.prune]
  | rule r ts =>
    rw [Node.prune, Node.prune, Node.prune]
    congr 1
    apply outlineL_inj []
    rw [prune_outlineL [] _ (by simp), prune_outlineL [] _ (by simp), prune_outlineL [] _ (by simp),
      List.filter_filter]
    congr 1
    funext x
    rw [Bool.eq_iff_iff, Bool.and_eq_true, decide_eq_true_iff, decide_eq_true_iff, decide_eq_true_iff]
    simp only [Survives, List.mem_append, not_or]
    constructor
    · rintro ⟨⟨h1, h2⟩, h3, h4⟩
      exact ⟨fun y hy => ⟨h3 y hy, h1 y hy⟩, fun n hn => ⟨h4 n hn, h2 n hn⟩⟩
    · rintro ⟨h1, h2⟩
      exact ⟨⟨fun y hy => (h1 y hy).2, fun n hn => (h2 n hn).2⟩, fun y hy => (h1 y hy).1,
        fun n hn => (h2 n hn).1⟩

/-- **C24**: pruning depends only on the set of names. -/
theorem C24_prune_set (a b : List Str) (h : ∀ n, n ∈ a ↔ n ∈ b) (t : Node) :
    Node.prune a t = Node.prune b t := by
  cases t with
  | val v => rw [Node.prune, Node.prune]
  | eof => rw [Node.prune, Node.prune]
  | rule r ts =>
    rw [Node.prune, Node.prune]
    congr 1
    apply outlineL_inj []
    rw [prune_outlineL [] _ (by simp), prune_outlineL [] _ (by simp)]
    congr 1
    funext x
    rw [Bool.eq_iff_iff, decide_eq_true_iff, decide_eq_true_iff]
    simp only [Survives, h]

/-- **C24**: pruning is idempotent. -/
theorem C24_prune_idempotent (names : List Str) (t : Node) :
    Node.prune names (Node.prune names t) = Node.prune names t := by
  rw [C24_prune_twice]
  exact C24_prune_set _ _ (by simp) t

/-- **C24**: pruning no names changes nothing. -/
theorem C24_prune_nothing (t : Node) : Node.prune [] t = t := by
  cases t with
  | val v => rw [Node.prune]
  | eof => rw [Node.prune]
  | rule r ts =>
    rw [Node.prune]
    congr 1
    apply outlineL_inj []
    rw [prune_outlineL [] _ (by simp), List.filter_eq_self]
    intro x _
    simp [Survives]

/-- the tree of the examples below -/
def exAst : Node := .rule c!"root" [.val c!"a", .rule c!"x" [.val c!"b", .rule c!"y" [.val c!"c"]],
  .rule c!"y" [.val c!"d", .val c!"e"], .val c!"f"]

example : Node.prune [c!"y", c!"root"] exAst =
    .rule c!"root" [.val c!"a", .rule c!"x" [.val c!"b"], .val c!"f"] := by decide +kernel

/-! ### C25 -/

theorem dissolve_rule_kept {keep anc n} (h : n ∈ keep) :
    dissolve keep (anc, .rule n) = some (anc.filter (· ∈ keep), .rule n) := if_pos h

theorem dissolve_rule_gone {keep : List Str} {anc n} (h : n ∉ keep) : dissolve keep (anc, .rule n) = none :=
  if_neg h

theorem pass_outlineL {keep : List Str} : ∀ (anc : List Str) (ts : List Node),
    outlineL (anc.filter (· ∈ keep)) (Node.passList keep ts) = (outlineL anc ts).filterMap (dissolve keep)
  | anc, [] => by simp [Node.passList, outlineL]
  | anc, .val v :: ts => by
    rw [Node.passList, outlineL, outlineL, Node.passThrough, outline, outline, List.filterMap_append,
      pass_outlineL anc ts]
    · simp [dissolve]
    · intro n vn h; cases h
  | anc, .eof :: ts => by
    rw [Node.passList, outlineL, outlineL, Node.passThrough, outline, outline, List.filterMap_append,
      pass_outlineL anc ts]
    · simp [dissolve]
    · intro n vn h; cases h
  | anc, .rule n ns :: ts => by
    rw [Node.passList, Node.isKept, any_eq_mem, outlineL, outline, List.filterMap_append]
    by_cases hn : n ∈ keep
    · rw [if_pos (by simp [hn]), outlineL, Node.passThrough, outline, pass_outlineL anc ts,
        List.filterMap_cons, dissolve_rule_kept hn]
      simp only
      congr 2
      rw [← pass_outlineL (anc ++ [n]) ns, List.filter_append]
      simp [hn]
    · rw [if_neg (by simp [hn]), outlineL_append, pass_outlineL anc ts, List.filterMap_cons,
        dissolve_rule_gone hn]
      simp only
      congr 1
      rw [← pass_outlineL (anc ++ [n]) ns, List.filter_append]
      simp [hn]

/-- **C25**: `pass_through_except` keeps the root; below it the rule nodes not named in `keep` disappear and
every other node stays, in order, losing only those ancestors. -/
theorem C25_pass_through_dissolves_other_rules (keep : List Str) (r : Str) (ts : List Node) :
    ∃ ts', Node.passThrough keep (.rule r ts) = .rule r ts' ∧
      outlineL [] ts' = (outlineL [] ts).filterMap (dissolve keep) :=
  ⟨Node.passList keep ts, by rw [Node.passThrough], pass_outlineL [] ts⟩

theorem pass_leavesL (keep : List Str) : ∀ ts : List Node, leavesL (Node.passList keep ts) = leavesL ts
  | [] => by simp [Node.passList, leavesL]
  | .val v :: ts => by
    rw [Node.passList, leavesL, leavesL, Node.passThrough, pass_leavesL keep ts]
    intro n vn h; cases h
  | .eof :: ts => by
    rw [Node.passList, leavesL, leavesL, Node.passThrough, pass_leavesL keep ts]
    intro n vn h; cases h
  | .rule n ns :: ts => by
    rw [Node.passList]
    have happ : ∀ a b : List Node, leavesL (a ++ b) = leavesL a ++ leavesL b := by
      intro a b
      induction a with
      | nil => rfl
      | cons x a ih => rw [List.cons_append, leavesL, leavesL, ih, List.append_assoc]
    by_cases h : Node.isKept keep (.rule n ns) = true
    · rw [if_pos h, leavesL, Node.passThrough, leaves, pass_leavesL keep ns, pass_leavesL keep ts, leavesL,
        leaves]
    · rw [if_neg h, happ, pass_leavesL keep ns, pass_leavesL keep ts, leavesL, leaves]

/-- **C25**: the sequence of leaves is unchanged. -/
theorem C25_leaves_unchanged (keep : List Str) (t : Node) : leaves (Node.passThrough keep t) = leaves t := by
  cases t with
  | val v => rw [Node.passThrough]
  | eof => rw [Node.passThrough]
  | rule r ts => rw [Node.passThrough, leaves, leaves, pass_leavesL]

/-- **C25**: only kept rules are left below the root. -/
theorem C25_only_kept_rules_below_root (keep : List Str) (t : Node) (m : Str) (ms : List Node)
    (h : Below (Node.passThrough keep t) (.rule m ms)) : m ∈ keep := by
  cases t with
  | val v => rw [Node.passThrough] at h; obtain ⟨_, _, _, h, _⟩ := h; cases h
  | eof => rw [Node.passThrough] at h; obtain ⟨_, _, _, h, _⟩ := h; cases h
  | rule r ts =>
    rw [Node.passThrough] at h
    obtain ⟨_, _, c, h, hc, hu⟩ := h
    cases h
    obtain ⟨a, ha⟩ := mem_outlineL_of_under (anc := []) hc hu
    have := pass_outlineL (keep := keep) [] ts
    rw [List.filter_nil] at this
    rw [this, List.mem_filterMap] at ha
    obtain ⟨⟨anc, i⟩, _, hx⟩ := ha
    cases i with
    | rule n =>
      by_cases hn : n ∈ keep
      · rw [dissolve_rule_kept hn] at hx
        simp only [Option.some.injEq, Prod.mk.injEq, Item.rule.injEq] at hx
        exact hx.2 ▸ hn
      · rw [dissolve_rule_gone hn] at hx; cases hx
    | val v => simp [dissolve] at hx
    | eof => simp [dissolve] at hx

/-- **C25**: `pass_through_except` is idempotent. -/
theorem C25_pass_through_idempotent (keep : List Str) (t : Node) :
    Node.passThrough keep (Node.passThrough keep t) = Node.passThrough keep t := by
  cases t with
  | val v => rw [Node.passThrough, Node.passThrough]
  | eof => rw [Node.passThrough, Node.passThrough]
  | rule r ts =>
    rw [Node.passThrough, Node.passThrough]
    congr 1
    apply outlineL_inj []
    have h : ∀ ts, outlineL [] (Node.passList keep ts) = (outlineL [] ts).filterMap (dissolve keep) :=
      fun ts => pass_outlineL (keep := keep) [] ts
    rw [h, h, List.filterMap_filterMap]
    congr 1
    funext x
    obtain ⟨anc, i⟩ := x
    cases i with
    | rule n =>
      by_cases hn : n ∈ keep
      · rw [dissolve_rule_kept hn]; simp [dissolve, hn, List.filter_filter]
      · rw [dissolve_rule_gone hn]; rfl
    | val v => simp [dissolve, List.filter_filter]
    | eof => simp [dissolve, List.filter_filter]

example : Node.passThrough [c!"y"] exAst =
    .rule c!"root" [.val c!"a", .val c!"b", .rule c!"y" [.val c!"c"],
      .rule c!"y" [.val c!"d", .val c!"e"], .val c!"f"] := by decide +kernel

/-! ### C26 -/

/-- how the fold of `compact` continues after an accumulated prefix -/
theorem compactNodes_run : ∀ (acc : List Node) (pv : Str) (vs : List Str) (rest : List Node),
    Node.compactNodes (acc ++ [.val pv]) (vs.map Node.val ++ rest) =
      Node.compactNodes (acc ++ [.val (pv ++ vs.flatten)]) rest
  | acc, pv, [], rest => by simp
  | acc, pv, v :: vs, rest => by
    rw [List.map_cons, List.cons_append, Node.compactNodes, Node.concatNodes]
    simp only [List.getLast?_append, List.getLast?_singleton, Option.some_or, List.dropLast_concat]
    rw [compactNodes_run acc (pv ++ v) vs rest]
    simp

/-- the accumulator is not touched when the next node is not merged into it -/
theorem compactNodes_acc : ∀ (acc : List Node) (ts : List Node),
    ((∀ v r, ts ≠ .val v :: r) ∨ (∀ v, acc.getLast? ≠ some (.val v))) →
    Node.compactNodes acc ts = acc ++ Node.compactNodes [] ts
  | acc, [], _ => by simp [Node.compactNodes]
  | acc, .eof :: ts, _ => by
    rw [Node.compactNodes, Node.compactNodes, Node.concatNodes, Node.concatNodes,
      compactNodes_acc (acc ++ [Node.eof]) ts (Or.inr (by simp)),
      compactNodes_acc ([] ++ [Node.eof]) ts (Or.inr (by simp))]
    simp
  | acc, .rule n ns :: ts, _ => by
    rw [Node.compactNodes, Node.compactNodes, Node.concatNodes, Node.concatNodes,
      compactNodes_acc (acc ++ [_]) ts (Or.inr (by simp)),
      compactNodes_acc ([] ++ [_]) ts (Or.inr (by simp))]
    simp
  | acc, .val v :: ts, h => by
    have hacc : ∀ v, acc.getLast? ≠ some (.val v) := by
      rcases h with h | h
      · exact absurd rfl (h v ts)
      · exact h
    have h1 : Node.concatNodes acc (.val v) = acc ++ [.val v] := by
      rw [Node.concatNodes]
      split
      · next pv hp => exact absurd hp (hacc pv)
      · rfl
    rw [Node.compactNodes, h1, Node.compactNodes, Node.concatNodes]
    simp only [List.getLast?_nil, List.nil_append]
    -- split the run of values that follows
    have hsplit : ∀ ts : List Node, ∃ (vs : List Str) (rest : List Node),
        ts = vs.map Node.val ++ rest ∧ (∀ v r, rest ≠ .val v :: r) ∧ rest.length ≤ ts.length := by
      intro ts
      induction ts with
      | nil => exact ⟨[], [], rfl, by simp, by simp⟩
      | cons t ts ih =>
        cases t with
        | val w =>
          obtain ⟨vs, rest, h1, h2, h3⟩ := ih
          exact ⟨w :: vs, rest, by rw [h1]; rfl, h2, by simp; omega⟩
        | rule n ns => exact ⟨[], _, rfl, by simp, by simp⟩
        | eof => exact ⟨[], _, rfl, by simp, by simp⟩
    obtain ⟨vs, rest, h2, h3, h4⟩ := hsplit ts
    subst h2
    rw [compactNodes_run]
    have := compactNodes_run [] v vs rest
    rw [List.nil_append, List.nil_append] at this
    rw [this]
    rw [compactNodes_acc (acc ++ [_]) rest (Or.inl h3), compactNodes_acc [_] rest (Or.inl h3)]
    simp
termination_by acc ts => ts.length
decreasing_by all_goals simp_all <;> omega

theorem compactNodes_joined : ∀ ts : List Node, Joined ts (Node.compactNodes [] ts)
  | [] => by rw [Node.compactNodes]; exact .nil
  | .eof :: ts => by
    rw [Node.compactNodes, Node.concatNodes, compactNodes_acc _ _ (Or.inr (by simp))]
    exact .eof (compactNodes_joined ts)
  | .rule n ns :: ts => by
    rw [Node.compactNodes, Node.concatNodes, compactNodes_acc _ _ (Or.inr (by simp))]
    exact .rule (compactNodes_joined ns) (compactNodes_joined ts)
  | .val v :: ts => by
    have hsplit : ∀ ts : List Node, ∃ (vs : List Str) (rest : List Node),
        ts = vs.map Node.val ++ rest ∧ (∀ v r, rest ≠ .val v :: r) ∧ sizeOf rest ≤ sizeOf ts := by
      intro ts
      induction ts with
      | nil => exact ⟨[], [], rfl, by simp, by simp⟩
      | cons t ts ih =>
        cases t with
        | val w =>
          obtain ⟨vs, rest, h1, h2, h3⟩ := ih
          exact ⟨w :: vs, rest, by rw [h1]; rfl, h2, by simp; omega⟩
        | rule n ns => exact ⟨[], _, rfl, by simp, by simp⟩
        | eof => exact ⟨[], _, rfl, by simp, by simp⟩
    obtain ⟨vs, rest, h2, h3, h4⟩ := hsplit ts
    have hc : Node.compactNodes [] (.val v :: ts) =
        .val (v :: vs).flatten :: Node.compactNodes [] rest := by
      rw [Node.compactNodes, Node.concatNodes]
      simp only [List.getLast?_nil, List.nil_append]
      have := compactNodes_run [] v vs rest
      rw [List.nil_append, List.nil_append] at this
      rw [h2, this, compactNodes_acc [_] rest (Or.inl h3)]
      simp
    rw [hc, h2]
    exact Joined.run (v :: vs) (by simp) h3 (compactNodes_joined rest)
termination_by ts => sizeOf ts
decreasing_by all_goals simp_all <;> omega

/-- **C26**: `compact` replaces every maximal run of sibling values, at any depth, by one value with the
concatenated text, and changes nothing else. -/
theorem C26_compact_joins_runs (r : Str) (ts : List Node) :
    ∃ ts', Node.compact (.rule r ts) = .rule r ts' ∧ Joined ts ts' :=
  ⟨_, rfl, compactNodes_joined ts⟩

/-- **C26**: leaves stay as they are. -/
theorem C26_compact_leaf : (∀ v, Node.compact (.val v) = .val v) ∧ Node.compact .eof = .eof :=
  ⟨fun _ => rfl, rfl⟩

theorem joined_head {ts ts'} (h : Joined ts ts') : (∀ v r, ts ≠ .val v :: r) → ∀ v r, ts' ≠ .val v :: r := by
  cases h with
  | nil => intro _ v r h; cases h
  | run vs hne _ _ =>
    intro hts
    cases vs with
    | nil => exact absurd rfl hne
    | cons v vs => exact absurd rfl (hts v _)
  | rule _ _ => intro _ v r h; cases h
  | eof _ => intro _ v r h; cases h

theorem joined_noAdjacent {ts ts'} (h : Joined ts ts') : NoAdjacentVals ts' := by
  induction h with
  | nil => exact .nil
  | run vs _ hr hj ih => exact .val (joined_head hj hr) ih
  | rule _ _ ih1 ih2 => exact .rule ih1 ih2
  | eof _ ih => exact .eof ih

/-- **C26**: no two sibling values are adjacent in the result. -/
theorem C26_no_adjacent_values (r : Str) (ts : List Node) :
    ∃ ts', Node.compact (.rule r ts) = .rule r ts' ∧ NoAdjacentVals ts' :=
  ⟨_, rfl, joined_noAdjacent (compactNodes_joined ts)⟩

theorem compact_of_noAdjacent {ts} (h : NoAdjacentVals ts) : Node.compactNodes [] ts = ts := by
  induction h with
  | nil => rw [Node.compactNodes]
  | @val v rest hr _ ih =>
    rw [Node.compactNodes, Node.concatNodes]
    simp only [List.getLast?_nil, List.nil_append]
    rw [compactNodes_acc _ _ (Or.inl hr), ih]
    rfl
  | rule _ _ ih1 ih2 =>
    rw [Node.compactNodes, Node.concatNodes, compactNodes_acc _ _ (Or.inr (by simp)), ih1, ih2]
    rfl
  | eof _ ih =>
    rw [Node.compactNodes, Node.concatNodes, compactNodes_acc _ _ (Or.inr (by simp)), ih]
    rfl

/-- **C26**: `compact` is idempotent. -/
theorem C26_compact_idempotent (t : Node) : t.compact.compact = t.compact := by
  cases t with
  | rule r ts =>
    show Node.rule r _ = Node.rule r _
    rw [compact_of_noAdjacent (joined_noAdjacent (compactNodes_joined ts))]
  | _ => rfl

example : exAst.compact = .rule c!"root" [.val c!"a", .rule c!"x" [.val c!"b", .rule c!"y" [.val c!"c"]],
    .rule c!"y" [.val c!"de"], .val c!"f"] := by decide +kernel

/-! ### C27 -/

mutual
theorem flattenAcc_eq : ∀ (acc : List FNode) (t : Node), flattenAcc acc t = acc ++ flattenAcc [] t
  | acc, .val v => by rw [flattenAcc, flattenAcc]; simp
  | acc, .eof => by rw [flattenAcc, flattenAcc]; simp
  | acc, .rule n ns => by
    rw [flattenAcc, flattenAcc, flattenFold_eq (acc ++ _) ns, flattenFold_eq ([] ++ _) ns]
    simp
theorem flattenFold_eq : ∀ (acc : List FNode) (ts : List Node),
    flattenFold acc ts = acc ++ flattenFold [] ts
  | acc, [] => by rw [flattenFold, flattenFold]; simp
  | acc, t :: ts => by
    rw [flattenFold, flattenFold, flattenAcc_eq acc t, flattenFold_eq _ ts, flattenFold_eq (flattenAcc [] t) ts]
    simp
end

theorem flatten_val (v) : Node.flatten (.val v) = [.val v] := by simp [Node.flatten, flattenAcc]
theorem flatten_eof : Node.flatten .eof = [] := by simp [Node.flatten, flattenAcc]

theorem flatten_rule (n ns) : Node.flatten (.rule n ns) =
    .beginRule n :: flattenFold [] ns ++ [.endRule n] := by
  rw [Node.flatten, flattenAcc, flattenFold_eq]; simp

theorem flattenFold_cons (t ts) : flattenFold [] (t :: ts) = Node.flatten t ++ flattenFold [] ts := by
  rw [flattenFold, flattenFold_eq]; rfl

theorem balanced_append {a b} (ha : Balanced a) (hb : Balanced b) : Balanced (a ++ b) := by
  induction ha with
  | nil => exact hb
  | val v _ ih => exact .val v ih
  | @rule l l' n h1 _ _ ih2 =>
    have := Balanced.rule n h1 ih2
    simpa using this

mutual
theorem flatten_balanced : ∀ t : Node, Balanced t.flatten
  | .val v => by rw [flatten_val]; exact .val v .nil
  | .eof => by rw [flatten_eof]; exact .nil
  | .rule n ns => by rw [flatten_rule]; exact .rule n (flattenFold_balanced ns) .nil
theorem flattenFold_balanced : ∀ ts : List Node, Balanced (flattenFold [] ts)
  | [] => by rw [flattenFold]; exact .nil
  | t :: ts => by
    rw [flattenFold_cons]; exact balanced_append (flatten_balanced t) (flattenFold_balanced ts)
end

/-- **C27**: `flatten` is well bracketed, with one outermost pair around a rule. -/
theorem C27_flatten_balanced (n : Str) (ns : List Node) :
    ∃ inner, Node.flatten (.rule n ns) = .beginRule n :: inner ++ [.endRule n] ∧ Balanced inner :=
  ⟨_, flatten_rule n ns, flattenFold_balanced ns⟩

/-- A balanced sequence is determined by where it is closed. -/
theorem balanced_split : ∀ {a a' b b' : List FNode} {n n' : Str}, Balanced a → Balanced a' →
    a ++ .endRule n :: b = a' ++ .endRule n' :: b' → a = a' ∧ n = n' ∧ b = b' := by
  intro a a' b b' n n' ha
  induction ha generalizing a' b b' n n' with
  | nil =>
    intro ha' h
    cases ha' with
    | nil => simp at h; exact ⟨rfl, h.1, h.2⟩
    | val v _ => simp at h
    | rule m _ _ => simp at h
  | @val l v hl ih =>
    intro ha' h
    cases ha' with
    | nil => simp at h
    | @val l' v' hl' =>
      simp only [List.cons_append, List.cons.injEq, FNode.val.injEq] at h
      obtain ⟨h1, h2, h3⟩ := ih hl' h.2
      exact ⟨by rw [h.1, h1], h2, h3⟩
    | rule m _ _ => simp at h
  | @rule l1 l2 m h1 h2 ih1 ih2 =>
    intro ha' h
    cases ha' with
    | nil => simp at h
    | val v _ => simp at h
    | @rule l1' l2' m' h1' h2' =>
      simp only [List.cons_append, List.append_assoc, List.cons.injEq, FNode.beginRule.injEq] at h
      obtain ⟨hm, h⟩ := h
      obtain ⟨e1, e2, e3⟩ := ih1 h1' h
      obtain ⟨e4, e5, e6⟩ := ih2 h2' e3
      exact ⟨by rw [hm, e1, e4], e5, e6⟩

theorem flattenFold_inj : ∀ ts ts' : List Node, (∀ t ∈ ts, NoEofNodes t) → (∀ t ∈ ts', NoEofNodes t) →
    flattenFold [] ts = flattenFold [] ts' → ts = ts'
  | [], [], _, _, _ => rfl
  | [], t' :: ts', _, h', h => by
    rw [flattenFold_cons] at h
    have ht := h' t' (by simp)
    cases ht with
    | val v => rw [flatten_val] at h; simp [flattenFold] at h
    | rule _ => rw [flatten_rule] at h; simp [flattenFold] at h
  | t :: ts, [], h0, _, h => by
    rw [flattenFold_cons] at h
    have ht := h0 t (by simp)
    cases ht with
    | val v => rw [flatten_val] at h; simp [flattenFold] at h
    | rule _ => rw [flatten_rule] at h; simp [flattenFold] at h
  | .eof :: ts, _ :: _, h0, _, _ => by have := h0 .eof (by simp); cases this
  | .val v :: ts, t' :: ts', h0, h', h => by
    rw [flattenFold_cons, flattenFold_cons, flatten_val] at h
    have ht := h' t' (by simp)
    cases ht with
    | val v' =>
      rw [flatten_val] at h
      simp only [List.cons_append, List.nil_append, List.cons.injEq, FNode.val.injEq] at h
      rw [h.1, flattenFold_inj ts ts' (fun t ht => h0 t (by simp [ht])) (fun t ht => h' t (by simp [ht])) h.2]
    | rule _ => rw [flatten_rule] at h; simp at h
  | .rule n ns :: ts, t' :: ts', h0, h', h => by
    rw [flattenFold_cons, flattenFold_cons, flatten_rule] at h
    have ht := h' t' (by simp)
    have ht0 := h0 (.rule n ns) (by simp)
    cases ht with
    | val v' => rw [flatten_val] at h; simp at h
    | @rule n' ns' hns' =>
      cases ht0 with
      | rule hns =>
        rw [flatten_rule] at h
        simp only [List.cons_append, List.append_assoc, List.cons.injEq, FNode.beginRule.injEq,
          List.nil_append] at h
        obtain ⟨rfl, h⟩ := h
        obtain ⟨e1, _, e3⟩ := balanced_split (flattenFold_balanced ns) (flattenFold_balanced ns') h
        rw [flattenFold_inj ns ns' hns hns' e1,
          flattenFold_inj ts ts' (fun t ht => h0 t (by simp [ht])) (fun t ht => h' t (by simp [ht])) e3]

/-- **C27**: trees without EOF nodes can be recovered from their flattening. -/
theorem C27_flatten_injective {t t' : Node} (h : NoEofNodes t) (h' : NoEofNodes t')
    (he : t.flatten = t'.flatten) : t = t' := by
  have := flattenFold_inj [t] [t'] (by simpa using h) (by simpa using h') (by
    rw [flattenFold_cons, flattenFold_cons, he])
  simpa using this

mutual
theorem flatten_no_eof : ∀ t : Node, FNode.eof ∉ t.flatten
  | .val v => by rw [flatten_val]; simp
  | .eof => by rw [flatten_eof]; simp
  | .rule n ns => by rw [flatten_rule]; simp [flattenFold_no_eof ns]
theorem flattenFold_no_eof : ∀ ts : List Node, FNode.eof ∉ flattenFold [] ts
  | [] => by rw [flattenFold]; simp
  | t :: ts => by rw [flattenFold_cons]; simp [flatten_no_eof t, flattenFold_no_eof ts]
end

mutual
theorem reading_flatten (anc) : ∀ (t : Node) (l : List FNode),
    reading anc (t.flatten ++ l) = (outline anc t).filter (fun x => x.2 ≠ .eof) ++ reading anc l
  | .val v, l => by rw [flatten_val]; simp [reading, outline]
  | .eof, l => by rw [flatten_eof]; simp [outline]
  | .rule n ns, l => by
    rw [flatten_rule, outline, List.cons_append, List.cons_append, reading, List.append_assoc, reading_fold (anc ++ [n]) ns]
    simp [reading]
theorem reading_fold (anc) : ∀ (ts : List Node) (l : List FNode),
    reading anc (flattenFold [] ts ++ l) = (outlineL anc ts).filter (fun x => x.2 ≠ .eof) ++ reading anc l
  | [], l => by simp [flattenFold, outlineL]
  | t :: ts, l => by
    rw [flattenFold_cons, outlineL, List.append_assoc, reading_flatten anc t, reading_fold anc ts, List.filter_append,
      List.append_assoc]
end

/-- **C27**: reading the flat sequence, one meets the nodes of the tree, all but the EOF nodes, in the order of the
document and each inside of its ancestors. -/
theorem C27_flatten_reads_as_the_tree (t : Node) :
    reading [] t.flatten = (outline [] t).filter (fun x => x.2 ≠ .eof) := by
  have := reading_flatten [] t []
  simpa [reading] using this

example : Node.flatten (.rule c!"a" [.val c!"x", .eof, .rule c!"b" [], .val c!"y"]) =
    [.beginRule c!"a", .val c!"x", .beginRule c!"b", .endRule c!"b", .val c!"y", .endRule c!"a"] := by decide

/-- **C27**: EOF nodes are dropped: two trees differing by one are flattened alike. -/
theorem C27_eof_nodes_dropped (t : Node) (n : Str) (a b : List Node) : FNode.eof ∉ t.flatten ∧
    Node.flatten (.rule n (a ++ .eof :: b)) = Node.flatten (.rule n (a ++ b)) := by
  refine ⟨flatten_no_eof t, ?_⟩
  rw [flatten_rule, flatten_rule]
  congr 2
  induction a with
  | nil => rw [List.nil_append, flattenFold_cons, flatten_eof]; rfl
  | cons x a ih => rw [List.cons_append, List.cons_append, flattenFold_cons, flattenFold_cons, ih]

theorem flatLeaves_append : ∀ a b, flatLeaves (a ++ b) = flatLeaves a ++ flatLeaves b
  | [], b => rfl
  | .val v :: a, b => by rw [List.cons_append, flatLeaves, flatLeaves, flatLeaves_append a b]; rfl
  | .beginRule n :: a, b => by
    rw [List.cons_append, flatLeaves, flatLeaves, flatLeaves_append a b] <;> intro v h <;> cases h
  | .endRule n :: a, b => by
    rw [List.cons_append, flatLeaves, flatLeaves, flatLeaves_append a b] <;> intro v h <;> cases h
  | .eof :: a, b => by
    rw [List.cons_append, flatLeaves, flatLeaves, flatLeaves_append a b] <;> intro v h <;> cases h

mutual
theorem flatten_leaves : ∀ t : Node, flatLeaves t.flatten = leaves t
  | .val v => by rw [flatten_val]; rfl
  | .eof => by rw [flatten_eof]; rfl
  | .rule n ns => by
    rw [flatten_rule, leaves, ← flattenFold_leaves ns, List.cons_append, flatLeaves, flatLeaves_append]
    · simp [flatLeaves]
    · intro v h; cases h
theorem flattenFold_leaves : ∀ ts : List Node, flatLeaves (flattenFold [] ts) = leavesL ts
  | [] => by rw [flattenFold]; rfl
  | t :: ts => by
    rw [flattenFold_cons, flatLeaves_append, flatten_leaves t, flattenFold_leaves ts, leavesL]
end

example : NoEofNodes exAst := by
  refine .rule ?_
  intro t h
  simp only [List.mem_cons, List.not_mem_nil, or_false] at h
  rcases h with rfl | rfl | rfl | rfl
  · exact .val _
  · refine .rule ?_
    intro t h
    simp only [List.mem_cons, List.not_mem_nil, or_false] at h
    rcases h with rfl | rfl
    · exact .val _
    · refine .rule ?_
      intro t h
      simp only [List.mem_cons, List.not_mem_nil, or_false] at h
      subst h; exact .val _
  · refine .rule ?_
    intro t h
    simp only [List.mem_cons, List.not_mem_nil, or_false] at h
    rcases h with rfl | rfl <;> exact .val _
  · exact .val _

/-! ### C28 -/

/-- The text preserving transformations of the API. -/
inductive Step where
  | compact
  | passThrough (keep : List Str)

/-- apply one of them -/
def Step.apply : Step → Node → Node
  | .compact, t => t.compact
  | .passThrough keep, t => Node.passThrough keep t

theorem joined_text {ts ts'} (h : Joined ts ts') : textL ts' = textL ts := by
  have hval : ∀ vs : List Str, ∀ rest, textL (vs.map Node.val ++ rest) = vs.flatten ++ textL rest := by
    intro vs
    induction vs with
    | nil => intro rest; rfl
    | cons v vs ih =>
      intro rest
      have := ih rest
      unfold textL at *
      rw [List.map_cons, List.cons_append, leavesL, leaves, List.flatten_append, this]
      simp
  induction h with
  | nil => rfl
  | @run rest rest' vs _ _ _ ih =>
    rw [hval, ← ih]
    unfold textL
    rw [leavesL, leaves]
    simp
  | rule _ _ ih1 ih2 =>
    unfold textL at *
    rw [leavesL, leavesL, leaves, leaves, List.flatten_append, List.flatten_append, ih1, ih2]
  | eof _ ih =>
    unfold textL at *
    rw [leavesL, leavesL, leaves]
    simpa using ih

theorem step_text (s : Step) (t : Node) : text (s.apply t) = text t := by
  cases s with
  | compact =>
    cases t with
    | rule r ts => exact joined_text (compactNodes_joined ts)
    | _ => rfl
  | passThrough keep =>
    unfold text
    rw [Step.apply, C25_leaves_unchanged]

/-- **C28** for every tree, parsed or not: any sequence of `compact` and `pass_through_except`
calls, followed or not by `flatten`, leaves the text as it was. -/
theorem C28_post_processing_keeps_text_of_any_tree (t : Node) (steps : List Step) :
    text (steps.foldl (fun t st => st.apply t) t) = text t ∧
    (flatLeaves (steps.foldl (fun t st => st.apply t) t).flatten).flatten = text t := by
  have h1 : ∀ (steps : List Step) (t : Node), text (steps.foldl (fun t st => st.apply t) t) = text t := by
    intro steps
    induction steps with
    | nil => intro t; rfl
    | cons x steps ih => intro t; rw [List.foldl_cons, ih, step_text]
  refine ⟨h1 _ _, ?_⟩
  rw [flatten_leaves]
  show text _ = _
  rw [h1]

/-- **C28**: after a successful parse without EOF atoms, any sequence of `compact` and
`pass_through_except` calls, followed or not by `flatten`, still spells the input. -/
theorem C28_post_processing_preserves_text {s : Str} {R : SetOfRules} {t : Node}
    (hne : ∀ ne ∈ R.entries, NoEof ne.2) (h : parse s R = .ok t) (steps : List Step) :
    text (steps.foldl (fun t st => st.apply t) t) = s ∧
    (flatLeaves (steps.foldl (fun t st => st.apply t) t).flatten).flatten = s := by
  have := C28_post_processing_keeps_text_of_any_tree t steps
  rwa [C03_leaves_spell_input hne h] at this

/-- **C28** for every set of rules: with EOF atoms, copies of "EOF" may follow the input. -/
theorem C28_post_processing_preserves_text_any_rules {s : Str} {R : SetOfRules} {t : Node}
    (h : parse s R = .ok t) (steps : List Step) :
    ∃ k, text (steps.foldl (fun t st => st.apply t) t) =
        s ++ (List.replicate k c!"EOF").flatten ∧
      (flatLeaves (steps.foldl (fun t st => st.apply t) t).flatten).flatten =
        s ++ (List.replicate k c!"EOF").flatten := by
  obtain ⟨k, hk⟩ := C03_leaves_spell_input_any_rules h
  have := C28_post_processing_keeps_text_of_any_tree t steps
  rw [hk] at this
  exact ⟨k, this⟩

example : (flatLeaves ((Step.compact.apply
    (.rule c!"m" [.val c!"a", .val c!"b", .rule c!"n" [.val c!"EOF"]])).flatten)).flatten =
    c!"abEOF" :=
  (C28_post_processing_keeps_text_of_any_tree
    (.rule c!"m" [.val c!"a", .val c!"b", .rule c!"n" [.val c!"EOF"]]) [.compact]).2

example : text (Step.compact.apply ((Step.passThrough [c!"sp"]).apply exTree)) = c!"ab Q" :=
  (C28_post_processing_preserves_text exNoEof exParse [.passThrough [c!"sp"], .compact]).1

/-! ### C29 -/

/-- **C29**: `split_first_nodes` -/
theorem C29_split_first_nodes (ts : List Node) (t : Node) (rest : List Node) :
    splitFirstNodes ts = .ok (t, rest) ↔ ts = t :: rest := by
  cases ts <;> simp [splitFirstNodes]

/-- **C29**: `peek_first_node` -/
theorem C29_peek_first_node (ts : List Node) (t : Node) :
    peekFirstNode ts = .ok t ↔ ∃ rest, ts = t :: rest := by
  cases ts <;> simp [peekFirstNode]

/-- **C29**: `consume_val` -/
theorem C29_consume_val (ts : List Node) (v : Str) (rest : List Node) :
    consumeVal ts = .ok (v, rest) ↔ ts = .val v :: rest := by
  cases ts with
  | nil => constructor <;> intro h <;> cases h
  | cons t ts =>
    cases t with
    | val w =>
      show Except.ok (w, ts) = _ ↔ _
      simp
    | _ => constructor <;> intro h <;> cases h

/-- **C29**: `consume_this_value` -/
theorem C29_consume_this_value (v : Str) (ts rest : List Node) :
    consumeThisValue v ts = .ok rest ↔ ts = .val v :: rest := by
  cases ts with
  | nil => constructor <;> intro h <;> cases h
  | cons t ts =>
    cases t with
    | val w =>
      show (if w == v then Except.ok ts else _) = _ ↔ _
      by_cases h : w = v
      · simp [h]
      · simp [h]
    | _ => constructor <;> intro h <;> cases h

/-- **C29**: `consume_node_get_subnodes_for_rule_name_is` -/
theorem C29_consume_node_get_subnodes (dbg : Node → Str) (name : Str) (ts rest sub : List Node) :
    consumeNodeGetSubnodesForRuleNameIs dbg name ts = .ok (rest, sub) ↔ ts = .rule name sub :: rest := by
  cases ts with
  | nil => constructor <;> intro h <;> cases h
  | cons t ts =>
    cases t with
    | rule n ns =>
      show (if n == name then Except.ok (ts, ns) else _) = _ ↔ _
      by_cases h : n = name
      · simp [h, and_comm]
      · simp [h]
    | _ => constructor <;> intro h <;> cases h

/-- **C29**: `get_node_val`, `get_nodes_unique_val`, `get_nodename_and_nodes`, `check_empty_nodes` -/
theorem C29_getters (t : Node) (ts : List Node) :
    (∀ v, getNodeVal t = .ok v ↔ t = .val v) ∧
    (∀ v, getNodesUniqueVal ts = .ok v ↔ ts = [.val v]) ∧
    (∀ n sub, getNodenameAndNodes t = .ok (n, sub) ↔ t = .rule n sub) ∧
    (checkEmptyNodes ts = .ok () ↔ ts = []) := by
  refine ⟨?_, ?_, ?_, ?_⟩
  · intro v; cases t <;> simp [getNodeVal]
  · intro v
    match ts with
    | [] => simp [getNodesUniqueVal]
    | [t] => cases t <;> simp [getNodesUniqueVal, getNodeVal]
    | _ :: _ :: _ => simp [getNodesUniqueVal]
  · intro n sub; cases t <;> simp [getNodenameAndNodes]
  · cases ts <;> simp [checkEmptyNodes]

/-- **C29**, flat versions: `split_first_nodes`, `peek_first_node`, `consume_val`, `consume_this_value`,
`consume_node_start_rule_name`, `consume_node_end_rule_name`, `get_node_val`, `get_nodename`. -/
theorem C29_flat (ts : List FNode) :
    (∀ t rest, Flat.splitFirstNodes ts = .ok (t, rest) ↔ ts = t :: rest) ∧
    (∀ t, Flat.peekFirstNode ts = .ok t ↔ ∃ rest, ts = t :: rest) ∧
    (∀ v rest, Flat.consumeVal ts = .ok (v, rest) ↔ ts = .val v :: rest) ∧
    (∀ v rest, Flat.consumeThisValue v ts = .ok rest ↔ ts = .val v :: rest) ∧
    (∀ n rest, Flat.consumeNodeStartRuleName n ts = .ok rest ↔ ts = .beginRule n :: rest) ∧
    (∀ n rest, Flat.consumeNodeEndRuleName n ts = .ok rest ↔ ts = .endRule n :: rest) ∧
    (∀ t v, Flat.getNodeVal t = .ok v ↔ t = .val v) ∧
    (∀ t n, Flat.getNodename t = .ok n ↔ t = .beginRule n ∨ t = .endRule n) := by
  refine ⟨?_, ?_, ?_, ?_, ?_, ?_, ?_, ?_⟩
  · intro t rest; cases ts <;> simp [Flat.splitFirstNodes]
  · intro t; cases ts <;> simp [Flat.peekFirstNode]
  · intro v rest
    cases ts with
    | nil => constructor <;> intro h <;> cases h
    | cons t ts =>
      cases t with
      | val w => show Except.ok (w, ts) = _ ↔ _; simp
      | _ => constructor <;> intro h <;> cases h
  · intro v rest
    cases ts with
    | nil => constructor <;> intro h <;> cases h
    | cons t ts =>
      cases t with
      | val w =>
        show (if w == v then Except.ok ts else _) = _ ↔ _
        by_cases h : w = v <;> simp [h]
      | _ => constructor <;> intro h <;> cases h
  · intro n rest
    cases ts with
    | nil => constructor <;> intro h <;> cases h
    | cons t ts =>
      cases t with
      | beginRule w =>
        show (if w == n then Except.ok ts else _) = _ ↔ _
        by_cases h : w = n <;> simp [h]
      | _ => constructor <;> intro h <;> cases h
  · intro n rest
    cases ts with
    | nil => constructor <;> intro h <;> cases h
    | cons t ts =>
      cases t with
      | endRule w =>
        show (if w == n then Except.ok ts else _) = _ ↔ _
        by_cases h : w = n <;> simp [h]
      | _ => constructor <;> intro h <;> cases h
  · intro t v; cases t <;> simp [Flat.getNodeVal]
  · intro t n; cases t <;> simp [Flat.getNodename]

/-- **C29**: the errors of the helpers on trees, in full. On a value other than the expected one
`consume_this_value` gives the same text as on an empty slice. -/
theorem C29_errors (dbg : Node → Str) (t : Node) (ts : List Node) (name v : Str) (e : AstError) :
    (splitFirstNodes ts = .error e ↔ ts = [] ∧ e = ⟨c!"trying get first element from nodes on empty slice", none⟩) ∧
    (peekFirstNode ts = .error e ↔ ts = [] ∧ e = ⟨c!"exptected node on peek_first_node", none⟩) ∧
    (getNodeVal t = .error e ↔ (∀ w, t ≠ .val w) ∧ e = ⟨c!"expected node::Val", none⟩) ∧
    (getNodenameAndNodes t = .error e ↔ (∀ n ns, t ≠ .rule n ns) ∧ e = ⟨c!"expected node::Rule", none⟩) ∧
    (getNodesUniqueVal ts = .error e ↔
      (ts.length ≠ 1 ∧ e = ⟨c!"expected only one value in nodes", none⟩) ∨
      ∃ u, ts = [u] ∧ (∀ w, u ≠ .val w) ∧ e = ⟨c!"expected node::Val", none⟩) ∧
    (checkEmptyNodes ts = .error e ↔ ts ≠ [] ∧ e = ⟨c!"not consumed full nodes", none⟩) ∧
    (consumeVal ts = .error e ↔
      (ts = [] ∧ e = ⟨c!"trying get first element from nodes on empty slice", none⟩) ∨
      ∃ u us, ts = u :: us ∧ (∀ w, u ≠ .val w) ∧ e = ⟨c!"expected Val node", none⟩) ∧
    (consumeThisValue v ts = .error e ↔
      (ts = [] ∧ e = ⟨c!"trying get first element from nodes on empty slice", none⟩) ∨
      (∃ u us, ts = u :: us ∧ (∀ w, u ≠ .val w) ∧ e = ⟨c!"expected node::Val", none⟩) ∨
      ∃ w us, ts = .val w :: us ∧ w ≠ v ∧ e = ⟨c!"trying get first element from nodes on empty slice", none⟩) ∧
    (consumeNodeGetSubnodesForRuleNameIs dbg name ts = .error e ↔
      (ts = [] ∧ e = ⟨c!"trying get first element from nodes on empty slice", none⟩) ∨
      (∃ n ns us, ts = .rule n ns :: us ∧ n ≠ name ∧ e = ⟨c!"expected " ++ name ++ c!" node, received " ++ n, none⟩) ∨
      ∃ u us, ts = u :: us ∧ (∀ n ns, u ≠ .rule n ns) ∧ e = ⟨c!"expected " ++ name ++ c!" Node::Rule, received " ++ dbg u, none⟩) := by
  refine ⟨?_, ?_, ?_, ?_, ?_, ?_, ?_, ?_, ?_⟩
  · cases ts <;> simp [splitFirstNodes, astError, @eq_comm _ _ e]
  · cases ts <;> simp [peekFirstNode, astError, @eq_comm _ _ e]
  · cases t <;> simp [getNodeVal, astError, @eq_comm _ _ e]
  · cases t <;> simp [getNodenameAndNodes, astError, @eq_comm _ _ e]
  · match ts with
    | [] => simp [getNodesUniqueVal, astError, @eq_comm _ _ e]
    | [u] => cases u <;> simp [getNodesUniqueVal, getNodeVal, astError, @eq_comm _ _ e]
    | _ :: _ :: _ => simp [getNodesUniqueVal, astError, @eq_comm _ _ e]
  · cases ts <;> simp [checkEmptyNodes, astError, @eq_comm _ _ e]
  · rcases ts with _ | ⟨_ | _ | _, us⟩ <;> simp [consumeVal, splitFirstNodes, bind, Except.bind, astError, @eq_comm _ _ e]
  · rcases ts with _ | ⟨w | _ | _, us⟩
    · show Except.error (astError _ none) = .error e ↔ _
      simp [astError, @eq_comm _ _ e]
    rotate_left
    · show Except.error (astError _ none) = .error e ↔ _
      simp [astError, @eq_comm _ _ e]
    · show Except.error (astError _ none) = .error e ↔ _
      simp [astError, @eq_comm _ _ e]
    · show (if w == v then Except.ok us else Except.error (astError _ none)) = .error e ↔ _
      by_cases h : w = v
      · simp [h]
      · simp [h, astError, @eq_comm _ _ e]
  · rcases ts with _ | ⟨w | _ | _, us⟩
    · show Except.error (astError _ none) = .error e ↔ _
      simp [astError, @eq_comm _ _ e]
    · show Except.error (astError _ none) = .error e ↔ _
      simp [astError, @eq_comm _ _ e]
    rotate_left
    · show Except.error (astError _ none) = .error e ↔ _
      simp [astError, @eq_comm _ _ e]
    · rename_i m ms
      show (if m == name then Except.ok (us, ms) else Except.error (astError _ none)) = .error e ↔ _
      by_cases h : m = name <;> simp [h, astError, @eq_comm _ _ e]

/-- **C29**: the errors of the helpers on flat nodes, in full. -/
theorem C29_flat_errors (t : FNode) (ts : List FNode) (n v : Str) (e : AstError) :
    (Flat.splitFirstNodes ts = .error e ↔ ts = [] ∧ e = ⟨c!"trying get first element from nodes on empty slice", none⟩) ∧
    (Flat.peekFirstNode ts = .error e ↔ ts = [] ∧ e = ⟨c!"exptected node on peek_first_node", none⟩) ∧
    (Flat.getNodeVal t = .error e ↔ (∀ w, t ≠ .val w) ∧ e = ⟨c!"expected node::Val", none⟩) ∧
    (Flat.getNodename t = .error e ↔ (∀ m, t ≠ .beginRule m ∧ t ≠ .endRule m) ∧ e = ⟨c!"expected node::Rule", none⟩) ∧
    (Flat.consumeVal ts = .error e ↔
      (ts = [] ∧ e = ⟨c!"trying get first element from nodes on empty slice", none⟩) ∨
      ∃ u us, ts = u :: us ∧ (∀ w, u ≠ .val w) ∧ e = ⟨c!"expected Val node", none⟩) ∧
    (Flat.consumeThisValue v ts = .error e ↔
      (ts = [] ∧ e = ⟨c!"trying get first element from nodes on empty slice", none⟩) ∨
      (∃ u us, ts = u :: us ∧ (∀ w, u ≠ .val w) ∧ e = ⟨c!"expected node::Val", none⟩) ∨
      ∃ w us, ts = .val w :: us ∧ w ≠ v ∧ e = ⟨c!"trying get first element from nodes on empty slice", none⟩) ∧
    (Flat.consumeNodeStartRuleName n ts = .error e ↔
      (ts = [] ∧ e = ⟨c!"trying get first element from nodes on empty slice", none⟩) ∨
      (∃ m us, ts = .beginRule m :: us ∧ m ≠ n ∧ e = ⟨c!"expected " ++ n ++ c!" node, received " ++ m, none⟩) ∨
      ∃ u us, ts = u :: us ∧ (∀ m, u ≠ .beginRule m) ∧ e = ⟨c!"expected begin rule for " ++ n, none⟩) ∧
    (Flat.consumeNodeEndRuleName n ts = .error e ↔
      (ts = [] ∧ e = ⟨c!"trying get first element from nodes on empty slice", none⟩) ∨
      (∃ m us, ts = .endRule m :: us ∧ m ≠ n ∧ e = ⟨c!"expected " ++ n ++ c!" node, received " ++ m, none⟩) ∨
      ∃ u us, ts = u :: us ∧ (∀ m, u ≠ .endRule m) ∧ e = ⟨c!"expected end rule for " ++ n, none⟩) := by
  refine ⟨?_, ?_, ?_, ?_, ?_, ?_, ?_, ?_⟩
  · cases ts <;> simp [Flat.splitFirstNodes, astError, @eq_comm _ _ e]
  · cases ts <;> simp [Flat.peekFirstNode, astError, @eq_comm _ _ e]
  · cases t <;> simp [Flat.getNodeVal, astError, @eq_comm _ _ e]
  · cases t <;> simp [Flat.getNodename, astError, @eq_comm _ _ e]
  · rcases ts with _ | ⟨w | _ | _ | _, us⟩ <;>
    first
    | (show Except.error (astError _ none) = .error e ↔ _; simp [astError, @eq_comm _ _ e])
    | (show Except.ok _ = .error e ↔ _; simp)
  · rcases ts with _ | ⟨w | _ | _ | _, us⟩ <;>
    first
    | (show Except.error (astError _ none) = .error e ↔ _; simp [astError, @eq_comm _ _ e])
    | (show (if w == v then Except.ok us else Except.error (astError _ none)) = .error e ↔ _
       by_cases h : w = v <;> simp [h, astError, @eq_comm _ _ e])
  · rcases ts with _ | ⟨w | w | w | _, us⟩ <;>
    first
    | (show Except.error (astError _ none) = .error e ↔ _; simp [astError, @eq_comm _ _ e])
    | (show (if w == n then Except.ok us else Except.error (astError _ none)) = .error e ↔ _
       by_cases h : w = n <;> simp [h, astError, @eq_comm _ _ e])
  · rcases ts with _ | ⟨w | w | w | _, us⟩ <;>
    first
    | (show Except.error (astError _ none) = .error e ↔ _; simp [astError, @eq_comm _ _ e])
    | (show (if w == n then Except.ok us else Except.error (astError _ none)) = .error e ↔ _
       by_cases h : w = n <;> simp [h, astError, @eq_comm _ _ e])

example : consumeThisValue c!"x" [.val c!"x", .eof] = .ok [.eof] :=
  (C29_consume_this_value _ _ _).2 rfl

end DP
