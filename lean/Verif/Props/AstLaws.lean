/-
C56: in which order a tree is post-processed.
-/
import Verif.Props.Ast
import Verif.Proofs.Inline

namespace DP
open Spec

/-! ### two rounds of the same transformation -/

/-- **C56**: after two rounds of `pass_through_except` the rules named both times are left. -/
theorem C56_pass_through_twice (a b : List Str) (t : Node) :
    Node.passThrough b (Node.passThrough a t) = Node.passThrough (a.filter (· ∈ b)) t := by
  cases t with
  | val v => rw [Node.passThrough, Node.passThrough, Node.passThrough]
  | eof => rw [Node.passThrough, Node.passThrough, Node.passThrough]
  | rule r ts =>
    rw [Node.passThrough, Node.passThrough, Node.passThrough]
    congr 1
    apply outlineL_inj []
    have h1 := pass_outlineL (keep := b) [] (Node.passList a ts)
    have h2 := pass_outlineL (keep := a) [] ts
    have h3 := pass_outlineL (keep := a.filter (· ∈ b)) [] ts
    simp only [List.filter_nil] at h1 h2 h3
    rw [h1, h2, h3, List.filterMap_filterMap]
    congr 1
    funext x
    obtain ⟨anc, i⟩ := x
    have hf : (anc.filter (· ∈ a)).filter (· ∈ b) = anc.filter (· ∈ a.filter (· ∈ b)) := by
      rw [List.filter_filter]
      congr 1
      funext x
      simp [Bool.and_comm]
    cases i with
    | val v => simp only [dissolve, Option.bind_some, hf]
    | eof => simp only [dissolve, Option.bind_some, hf]
    | rule n =>
      by_cases ha : n ∈ a
      · by_cases hb : n ∈ b
        · simp only [dissolve, ha, if_true, Option.bind_some, hb, hf]
          simp [ha, hb]
        · simp [dissolve, ha, hb]
      · simp [dissolve, ha]

/-- **C56**: the order of two prunings does not matter. -/
theorem C56_prune_prune (a b : List Str) (t : Node) :
    Node.prune a (Node.prune b t) = Node.prune b (Node.prune a t) := by
  rw [C24_prune_twice, C24_prune_twice]
  exact C24_prune_set _ _ (fun n => by simp [or_comm]) t

/-! ### pruning and passing through -/

theorem prune_append (names a b) : Node.pruneList names (a ++ b) = Node.pruneList names a ++ Node.pruneList names b := by
  induction a with
  | nil => simp [Node.pruneList]
  | cons x xs ih =>
    rw [List.cons_append, Node.pruneList, Node.pruneList, ih]
    split <;> simp

theorem prune_pass (names keep : List Str) : ∀ ts : List Node,
    Node.pruneList names (Node.passList keep ts) = Node.passList keep (Node.pruneList (names.filter (· ∈ keep)) ts)
  | [] => by simp [Node.passList, Node.pruneList]
  | .val v :: ts => by
    have h1 : ∀ ns ts, Node.pruneList ns (.val v :: ts) = .val v :: Node.pruneList ns ts := by
      intro ns ts; rw [Node.pruneList, Node.prune, if_pos (by simp [Node.isNamedIn])]
    have h2 : ∀ ts, Node.passList keep (.val v :: ts) = .val v :: Node.passList keep ts := by
      intro ts; rw [Node.passList, Node.passThrough]; intro n vn h; cases h
    rw [h2, h1, h1, h2, prune_pass names keep ts]
  | .eof :: ts => by
    have h1 : ∀ ns ts, Node.pruneList ns (.eof :: ts) = .eof :: Node.pruneList ns ts := by
      intro ns ts; rw [Node.pruneList, Node.prune, if_pos (by simp [Node.isNamedIn])]
    have h2 : ∀ ts, Node.passList keep (.eof :: ts) = .eof :: Node.passList keep ts := by
      intro ts; rw [Node.passList, Node.passThrough]; intro n vn h; cases h
    rw [h2, h1, h1, h2, prune_pass names keep ts]
  | .rule n ns :: ts => by
    have ihn := prune_pass names keep ns
    have iht := prune_pass names keep ts
    by_cases hk : n ∈ keep
    · have h1 : ∀ ns ts, Node.passList keep (.rule n ns :: ts) = .rule n (Node.passList keep ns) :: Node.passList keep ts := by
        intro ns ts; rw [Node.passList, if_pos (by simp [Node.isKept, hk]), Node.passThrough]
      rw [h1]
      by_cases hn : n ∈ names
      · rw [Node.pruneList, if_neg (by simp [Node.isNamedIn, hn]), Node.pruneList,
          if_neg (by simp [Node.isNamedIn, hn, hk]), iht]
      · rw [Node.pruneList, if_pos (by simp [Node.isNamedIn, any_eq_mem, hn]), Node.pruneList,
          if_pos (by simp [Node.isNamedIn]; rintro x hx _ rfl; exact hn hx), Node.prune, Node.prune, h1, ihn, iht]
    · have h1 : ∀ ns ts, Node.passList keep (.rule n ns :: ts) = Node.passList keep ns ++ Node.passList keep ts := by
        intro ns ts; rw [Node.passList, if_neg (by simp [Node.isKept, hk])]
      rw [h1, prune_append, Node.pruneList, if_pos (by simp [Node.isNamedIn]; rintro x _ hx rfl; exact hk hx), Node.prune, h1, ihn, iht]

/-- **C56**: pruning after `pass_through_except` removes those rules that were kept: it can as well be done before, for
these rules. -/
theorem C56_prune_after_pass_through (names keep : List Str) (t : Node) :
    Node.prune names (Node.passThrough keep t) = Node.passThrough keep (Node.prune (names.filter (· ∈ keep)) t) := by
  cases t with
  | val v => rw [Node.passThrough, Node.prune, Node.prune, Node.passThrough]
  | eof => rw [Node.passThrough, Node.prune, Node.prune, Node.passThrough]
  | rule r ts => rw [Node.passThrough, Node.prune, Node.prune, Node.passThrough, prune_pass]

/-- **C56**: so the two commute if only kept rules are pruned. -/
theorem C56_prune_pass_commute {names keep : List Str} (h : ∀ n ∈ names, n ∈ keep) (t : Node) :
    Node.prune names (Node.passThrough keep t) = Node.passThrough keep (Node.prune names t) := by
  rw [C56_prune_after_pass_through, List.filter_eq_self.mpr (by simpa using h)]

/-- **C56**: otherwise they do not: a rule that is dissolved leaves its values, one that is pruned does not. -/
theorem C56_prune_pass_differ : ∃ names keep t,
    Node.prune names (Node.passThrough keep t) ≠ Node.passThrough keep (Node.prune names t) :=
  ⟨[c!"x"], [], .rule c!"main" [.rule c!"x" [.val c!"a"]], by decide⟩

/-! ### compacting -/

/-- `compact` one node at a time, from the right -/
def joinOn : Node → List Node → List Node
  | .val v, .val w :: r => .val (v ++ w) :: r
  | .val v, r => .val v :: r
  | .eof, r => .eof :: r
  | .rule n ns, r => .rule n (Node.compactNodes [] ns) :: r

theorem compactNodes_cons (t : Node) (ts : List Node) :
    Node.compactNodes [] (t :: ts) = joinOn t (Node.compactNodes [] ts) := by
  cases t with
  | eof => rw [Node.compactNodes, Node.concatNodes, compactNodes_acc _ _ (Or.inr (by simp))]; rfl
  | rule n ns => rw [Node.compactNodes, Node.concatNodes, compactNodes_acc _ _ (Or.inr (by simp))]; rfl
  | val v =>
    have hv : ∀ v ts, Node.compactNodes [] (.val v :: ts) = Node.compactNodes [.val v] ts := by
      intro v ts; rw [Node.compactNodes, Node.concatNodes]; rfl
    cases ts with
    | nil => rw [hv, Node.compactNodes, Node.compactNodes]; rfl
    | cons u us =>
      cases u with
      | val w =>
        have h1 := compactNodes_run [] v [w] us
        simp only [List.nil_append, List.map_cons, List.map_nil, List.cons_append, List.flatten_cons, List.flatten_nil,
          List.append_nil] at h1
        rw [hv, h1]
        rw [hv w us]
        -- both runs go on alike
        have hgo : ∀ (us : List Node) (a b : Str), Node.compactNodes [.val (a ++ b)] us =
            joinOn (.val a) (Node.compactNodes [.val b] us) := by
          intro us
          induction us with
          | nil => intro a b; rw [Node.compactNodes, Node.compactNodes]; rfl
          | cons x xs ih =>
            intro a b
            cases x with
            | val c =>
              have h2 := compactNodes_run [] (a ++ b) [c] xs
              have h3 := compactNodes_run [] b [c] xs
              simp only [List.nil_append, List.map_cons, List.map_nil, List.cons_append, List.flatten_cons,
                List.flatten_nil, List.append_nil] at h2 h3
              rw [h2, h3, List.append_assoc, ih]
            | eof =>
              rw [compactNodes_acc [.val (a ++ b)] _ (Or.inl (by simp)), compactNodes_acc [.val b] _ (Or.inl (by simp))]
              rfl
            | rule n ns =>
              rw [compactNodes_acc [.val (a ++ b)] _ (Or.inl (by simp)), compactNodes_acc [.val b] _ (Or.inl (by simp))]
              rfl
        exact hgo us v w
      | eof =>
        rw [hv, compactNodes_acc _ _ (Or.inl (by simp)), Node.compactNodes, Node.concatNodes,
          compactNodes_acc _ _ (Or.inr (by simp))]
        rfl
      | rule n ns =>
        rw [hv, compactNodes_acc _ _ (Or.inl (by simp)), Node.compactNodes, Node.concatNodes,
          compactNodes_acc _ _ (Or.inr (by simp))]
        rfl

/-- the same nodes but for how the values are cut -/
inductive Cut : List Node → List Node → Prop
  | refl (a) : Cut a a
  | symm {a b} : Cut a b → Cut b a
  | trans {a b c} : Cut a b → Cut b c → Cut a c
  | merge (v w r) : Cut (.val v :: .val w :: r) (.val (v ++ w) :: r)
  | cons {a b} (t) : Cut a b → Cut (t :: a) (t :: b)
  | rule {a b} (n r) : Cut a b → Cut (.rule n a :: r) (.rule n b :: r)

theorem cut_append {a b} (h : Cut a b) (l r : List Node) : Cut (l ++ a ++ r) (l ++ b ++ r) := by
  have h1 : Cut (a ++ r) (b ++ r) := by
    induction h with
    | refl a => exact .refl _
    | symm _ ih => exact .symm ih
    | trans _ _ ih1 ih2 => exact .trans ih1 ih2
    | merge v w x => exact .merge v w _
    | cons t _ ih => exact .cons t ih
    | rule n x h _ => exact .rule n _ h
  induction l with
  | nil => exact h1
  | cons x xs ih => exact .cons x ih

theorem cut_compact {a b} (h : Cut a b) : Node.compactNodes [] a = Node.compactNodes [] b := by
  induction h with
  | refl a => rfl
  | symm _ ih => exact ih.symm
  | trans _ _ ih1 ih2 => exact ih1.trans ih2
  | merge v w r =>
    rw [compactNodes_cons, compactNodes_cons, compactNodes_cons]
    cases Node.compactNodes [] r with
    | nil => rfl
    | cons x xs => cases x <;> simp [joinOn]
  | cons t _ ih => rw [compactNodes_cons, compactNodes_cons, ih]
  | rule n r _ ih => rw [compactNodes_cons, compactNodes_cons, joinOn, joinOn, ih]

mutual
theorem cut_of_compact : ∀ ts : List Node, Cut ts (Node.compactNodes [] ts)
  | [] => by rw [Node.compactNodes]; exact .refl _
  | t :: ts => by
    rw [compactNodes_cons]
    refine .trans (.cons t (cut_of_compact ts)) ?_
    cases t with
    | eof => exact .refl _
    | rule n ns => exact .rule n _ (cut_of_compact ns)
    | val v =>
      cases Node.compactNodes [] ts with
      | nil => exact .refl _
      | cons x xs =>
        cases x with
        | val w => exact .merge v w xs
        | eof => exact .refl _
        | rule n ns => exact .refl _
end

theorem cut_prune (names) {a b} (h : Cut a b) : Cut (Node.pruneList names a) (Node.pruneList names b) := by
  have hv : ∀ v ts, Node.pruneList names (.val v :: ts) = .val v :: Node.pruneList names ts := by
    intro v ts; rw [Node.pruneList, Node.prune, if_pos (by simp [Node.isNamedIn])]
  induction h with
  | refl a => exact .refl _
  | symm _ ih => exact .symm ih
  | trans _ _ ih1 ih2 => exact .trans ih1 ih2
  | merge v w r => rw [hv, hv, hv]; exact .merge v w _
  | cons t _ ih =>
    rw [Node.pruneList, Node.pruneList]
    split
    · exact .cons _ ih
    · exact ih
  | rule n r _ ih =>
    rw [Node.pruneList, Node.pruneList]
    by_cases hn : n ∈ names
    · rw [if_neg (by simp [Node.isNamedIn, hn]), if_neg (by simp [Node.isNamedIn, hn])]; exact .refl _
    · rw [if_pos (by simp [Node.isNamedIn, any_eq_mem, hn]), if_pos (by simp [Node.isNamedIn, any_eq_mem, hn]), Node.prune, Node.prune]
      exact .rule n _ ih

theorem cut_pass (keep) {a b} (h : Cut a b) : Cut (Node.passList keep a) (Node.passList keep b) := by
  have hv : ∀ v ts, Node.passList keep (.val v :: ts) = .val v :: Node.passList keep ts := by
    intro v ts; rw [Node.passList, Node.passThrough]; intro n vn h; cases h
  induction h with
  | refl a => exact .refl _
  | symm _ ih => exact .symm ih
  | trans _ _ ih1 ih2 => exact .trans ih1 ih2
  | merge v w r => rw [hv, hv, hv]; exact .merge v w _
  | @cons a b t _ ih =>
    rw [passList_cons keep t a, passList_cons keep t b]
    have := cut_append ih (Node.passList keep [t]) []
    simpa using this
  | @rule a b n r _ ih =>
    rw [passList_cons keep _ r, passList_cons keep (.rule n b) r]
    by_cases hn : n ∈ keep
    · have h1 : ∀ a, Node.passList keep [.rule n a] = [.rule n (Node.passList keep a)] := by
        intro a; rw [Node.passList, if_pos (by simp [Node.isKept, hn]), Node.passThrough, Node.passList]
      rw [h1, h1]
      exact .rule n _ ih
    · rw [passList_dissolved hn, passList_dissolved hn]
      have := cut_append ih [] (Node.passList keep r)
      simpa using this

/-- **C56**: compacting before pruning is not needed if the result is compacted. -/
theorem C56_compact_prune (names : List Str) (t : Node) :
    (Node.prune names t.compact).compact = (Node.prune names t).compact := by
  cases t with
  | val v => simp [Node.compact, Node.prune]
  | eof => simp [Node.compact, Node.prune]
  | rule r ts =>
    simp only [Node.compact, Node.prune]
    rw [cut_compact (cut_prune names (cut_of_compact ts).symm)]

/-- **C56**: compacting before `pass_through_except` is not needed if the result is compacted. -/
theorem C56_compact_pass_through (keep : List Str) (t : Node) :
    (Node.passThrough keep t.compact).compact = (Node.passThrough keep t).compact := by
  cases t with
  | val v => simp [Node.compact, Node.passThrough]
  | eof => simp [Node.compact, Node.passThrough]
  | rule r ts =>
    simp only [Node.compact, Node.passThrough]
    rw [cut_compact (cut_pass keep (cut_of_compact ts).symm)]

/-- **C56**: compacting afterwards is needed: pruning and dissolving bring values together. -/
theorem C56_compact_last : (∃ names t, (Node.prune names t.compact) ≠ (Node.prune names t).compact) ∧
    ∃ keep t, (Node.passThrough keep t.compact) ≠ (Node.passThrough keep t).compact :=
  ⟨⟨[c!"x"], .rule c!"main" [.val c!"a", .rule c!"x" [], .val c!"b"], by decide⟩,
    [], .rule c!"main" [.val c!"a", .rule c!"x" [.val c!"b"]], by decide⟩

/-! ### any sequence of transformations -/

/-- one step of post-processing -/
inductive Op where
  | prune (names : List Str)
  | pass (keep : List Str)
  | compact

def Op.apply : Op → Node → Node
  | .prune names, t => t.prune names
  | .pass keep, t => t.passThrough keep
  | .compact, t => t.compact

theorem compact_op (o : Op) (t : Node) : (o.apply t.compact).compact = (o.apply t).compact := by
  cases o with
  | prune names => exact C56_compact_prune names t
  | pass keep => exact C56_compact_pass_through keep t
  | compact => simp only [Op.apply]; rw [C26_compact_idempotent]

/-- **C56**: whatever is done to a tree with `prune`, `pass_through_except` and `compact`, in whatever order, if the
tree is compacted in the end then one pruning and at most one `pass_through_except` would have done. -/
theorem C56_normal_form (ops : List Op) : ∃ names : List Str,
    (∀ t : Node, (ops.foldl (fun t o => o.apply t) t).compact = (t.prune names).compact) ∨
    ∃ keep : List Str, ∀ t : Node, (ops.foldl (fun t o => o.apply t) t).compact = ((t.prune names).passThrough keep).compact := by
  rw [← List.reverse_reverse ops]
  induction ops.reverse with
  | nil => exact ⟨[], .inl fun t => by rw [C24_prune_nothing]; rfl⟩
  | cons o rev ih =>
    rw [List.reverse_cons]
    generalize rev.reverse = ops at ih ⊢
    have hstep : ∀ (t u : Node), (ops.foldl (fun t o => o.apply t) t).compact = u.compact →
        ((ops ++ [o]).foldl (fun t o => o.apply t) t).compact = (o.apply u).compact := by
      intro t u h
      rw [List.foldl_append, List.foldl_cons, List.foldl_nil, ← compact_op, h, compact_op]
    obtain ⟨names, h | ⟨keep, h⟩⟩ := ih
    · cases o with
      | prune b => exact ⟨names ++ b, .inl fun t => by rw [hstep t _ (h t), Op.apply, C24_prune_twice]⟩
      | pass keep => exact ⟨names, .inr ⟨keep, fun t => by rw [hstep t _ (h t), Op.apply]⟩⟩
      | compact => exact ⟨names, .inl fun t => by rw [hstep t _ (h t), Op.apply, C26_compact_idempotent]⟩
    · cases o with
      | prune b =>
        refine ⟨names ++ b.filter (· ∈ keep), .inr ⟨keep, fun t => ?_⟩⟩
        rw [hstep t _ (h t), Op.apply, C56_prune_after_pass_through, C24_prune_twice]
      | pass k => exact ⟨names, .inr ⟨keep.filter (· ∈ k), fun t => by rw [hstep t _ (h t), Op.apply, C56_pass_through_twice]⟩⟩
      | compact => exact ⟨names, .inr ⟨keep, fun t => by rw [hstep t _ (h t), Op.apply, C26_compact_idempotent]⟩⟩

example : ((((exAst.compact).passThrough [c!"x", c!"y"]).compact).prune [c!"x"]).compact =
    ((exAst.prune [c!"x"]).passThrough [c!"x", c!"y"]).compact := by decide +kernel

end DP
