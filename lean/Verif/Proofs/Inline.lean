/-
Inlining of rules: the runs correspond.
-/
import Verif.Spec.Inline
import Verif.Proofs.Regroup
import Verif.Proofs.Preserve

namespace DP
open Spec

theorem Spec.Unfolds.symm {G G' D S e e'} (h : Unfolds G G' D S e e') : Unfolds G' G D S e' e := by
  induction h with
  | simple a => exact .simple a
  | call h => exact .call h
  | and_nil => exact .and_nil
  | and_cons _ _ ih1 ih2 => exact .and_cons ih1 ih2
  | or_nil => exact .or_nil
  | or_cons _ _ ih1 ih2 => exact .or_cons ih1 ih2
  | not _ ih => exact .not ih
  | rep mn mx _ ih => exact .rep mn mx ih
  | left hd hg _ ih => exact .right hd hg ih
  | right hd hg _ ih => exact .left hd hg ih

theorem Spec.UnfoldsRules.symm {R R' D S} (h : UnfoldsRules R R' D S) : UnfoldsRules R' R D S := by
  refine ⟨h.main, fun n hn => ?_⟩
  have := h.rules n hn
  cases h1 : R.get n <;> cases h2 : R'.get n <;> rw [h1, h2] at this
  · trivial
  · exact this
  · exact this
  · exact Unfolds.symm this

theorem inline_untraced (R : SetOfRules) : Preserved R (fun _ => True) (fun st => st.traceRules = false) (fun _ => True) True where
  get := by
    intro st st' c h hg
    obtain ⟨_, _, _, h2, _, _⟩ := getChar_ok hg
    rw [h2]; exact h
  push := by intro st n h _ ht; rw [h] at ht; cases ht
  pot := by intro st e h _ _; exact h
  err := by intros; trivial
  pan := by intros; trivial

theorem untraced_expr {R : SetOfRules} {f st e x} (ht : st.traceRules = false) (h : parseExpr R f st e = .ok x) :
    x.1.traceRules = false := by
  have := (preserve (inline_untraced R) (fun _ _ _ _ _ => trivial) f).2.1 st e ht (fun _ _ => trivial)
  rw [h] at this; exact this

theorem passList_cons (keep t ts) : Node.passList keep (t :: ts) = Node.passList keep [t] ++ Node.passList keep ts := by
  cases t with
  | val v => simp [Node.passList]
  | eof => simp [Node.passList]
  | rule n ns =>
    rw [Node.passList, Node.passList]
    split <;> simp [Node.passList]

theorem passList_append (keep a b) : Node.passList keep (a ++ b) = Node.passList keep a ++ Node.passList keep b := by
  induction a with
  | nil => simp [Node.passList]
  | cons x xs ih => rw [List.cons_append, passList_cons, ih, passList_cons keep x xs, List.append_assoc]

theorem passList_rule_congr {keep n a b} (h : Node.passList keep a = Node.passList keep b) :
    Node.passList keep [.rule n a] = Node.passList keep [.rule n b] := by
  simp only [Node.passList, Node.passThrough, Node.isKept, h]
  rfl

theorem passList_dissolved {keep n a} (h : n ∉ keep) : Node.passList keep [.rule n a] = Node.passList keep a := by
  rw [Node.passList, if_neg, Node.passList, List.append_nil]
  simpa [Node.isKept] using h

/-- Results of a run, perhaps unfinished, and of another. -/
def RelRun (keep : List Str) : Out Error (Status × List Node) → Out Error (Status × List Node) → Prop
  | .ok x, .ok y => x.1 = y.1 ∧ Node.passList keep x.2 = Node.passList keep y.2
  | .err e, .err e' => e = e'
  | .panic, .panic => True
  | .diverge, _ => True
  | _, _ => False

def RelRule (keep : List Str) : Out Error (Status × Node) → Out Error (Status × Node) → Prop
  | .ok x, .ok y => x.1 = y.1 ∧ ∃ n a b, x.2 = .rule n a ∧ y.2 = .rule n b ∧ Node.passList keep a = Node.passList keep b
  | .err e, .err e' => e = e'
  | .panic, .panic => True
  | .diverge, _ => True
  | _, _ => False

theorem relRun_raise {keep st d p} : RelRun keep (raise st d p) (raise st d p) := by
  unfold raise
  cases fromStatus st d p
  · trivial
  · rfl

theorem relRun_refl {keep x} : RelRun keep x x := by
  rcases x with x | x | _ | _
  · exact ⟨rfl, rfl⟩
  · rfl
  · trivial
  · trivial

variable {R R' : SetOfRules} {D S : Str → Prop} {keep : List Str}

theorem inline_runs (hR : UnfoldsRules R R' D S) (hk : ∀ n ∈ keep, ¬ D n) : ∀ f,
    ((∀ st n, st.traceRules = false → S n → RelRule keep (parseRuleName R f st n) (runRule R' st n)) ∧
     (∀ st n b e', st.traceRules = false → D n → R.get n = some b → Unfolds R.get R'.get D S b e' →
       RelRun keep (asExpr (parseRuleName R f st n)) (runExpr R' st e'))) ∧
    (∀ st e e', st.traceRules = false → Unfolds R.get R'.get D S e e' → RelRun keep (parseExpr R f st e) (runExpr R' st e')) ∧
    (∀ st es es' acc acc', st.traceRules = false → Unfolds R.get R'.get D S (.and es) (.and es') →
      Node.passList keep acc = Node.passList keep acc' → RelRun keep (parseAnd R f st es acc) (runAnd R' st es' acc')) ∧
    (∀ st es es' acc, st.traceRules = false → Unfolds R.get R'.get D S (.or es) (.or es') →
      RelRun keep (parseOr R f st es acc) (runOr R' st es' acc)) ∧
    (∀ e e' mn mx st k acc acc', st.traceRules = false → Unfolds R.get R'.get D S e e' →
      Node.passList keep acc = Node.passList keep acc' →
      RelRun keep (parseRepeat R f e mn mx st k acc) (runRepeat R' e' mn mx st k acc')) := by
  intro f
  induction f with
  | zero =>
    refine ⟨⟨?_, ?_⟩, ?_, ?_, ?_, ?_⟩ <;> intros
    · rw [parseRuleName]; trivial
    · rw [parseRuleName]; trivial
    · rw [parseExpr]; trivial
    · rw [parseAnd]; trivial
    · rw [parseOr]; trivial
    · rw [parseRepeat]; trivial
  | succ f ih =>
    obtain ⟨⟨ih1, ih1'⟩, ih2, ih3, ih4, ih5⟩ := ih
    refine ⟨⟨?_, ?_⟩, ?_, ?_, ?_, ?_⟩
    · intro st n ht hn
      have hr := hR.rules n hn
      rw [parseRuleName, runRule_eq]
      simp only [ht, Bool.false_eq_true, if_false]
      cases h1 : R.get n <;> cases h2 : R'.get n <;> rw [h1, h2] at hr
      · simp only
        unfold raise
        cases fromStatus st (.missingRule n) .critical
        · trivial
        · rfl
      · exact absurd hr id
      · exact absurd hr id
      · rename_i e e'
        simp only
        have := ih2 st e e' ht hr
        revert this
        rcases parseExpr R f st e with x | x | _ | _ <;> rcases runExpr R' st e' with y | y | _ | _ <;> intro h <;>
          first
          | exact ⟨h.1, n, _, _, rfl, rfl, h.2⟩
          | exact h
    · intro st n b e' ht hd hg hu
      rw [parseRuleName]
      simp only [ht, Bool.false_eq_true, if_false, hg]
      have := ih2 st b e' ht hu
      have hn : n ∉ keep := fun h => hk n h hd
      revert this
      rcases parseExpr R f st b with x | x | _ | _ <;> rcases runExpr R' st e' with y | y | _ | _ <;> intro h <;>
        first
        | exact ⟨h.1, (passList_dissolved hn).trans h.2⟩
        | exact h
    · intro st e e' ht hu
      induction hu with
      | simple a => rw [parseExpr, runExpr_simple]; exact relRun_refl
      | @call n hn =>
        rw [parseExpr, runExpr_ruleName]
        have := ih1 st n ht hn
        revert this
        rcases parseRuleName R f st n with x | x | _ | _ <;> rcases runRule R' st n with y | y | _ | _ <;> intro h
        · obtain ⟨h1, m, a, b, h2, h3, h4⟩ := h
          refine ⟨h1, ?_⟩
          simp only [h2, h3]
          exact passList_rule_congr h4
        all_goals exact h
      | and_nil => rw [parseExpr, runExpr_and]; exact ih3 st _ _ [] [] ht .and_nil rfl
      | and_cons h1 h2 _ _ => rw [parseExpr, runExpr_and]; exact ih3 st _ _ [] [] ht (.and_cons h1 h2) rfl
      | or_nil => rw [parseExpr, runExpr_or]; exact ih4 st _ _ none ht .or_nil
      | or_cons h1 h2 _ _ => rw [parseExpr, runExpr_or]; exact ih4 st _ _ none ht (.or_cons h1 h2)
      | @not e e' h _ =>
        rw [parseExpr, runExpr_not]
        have := ih2 st e e' ht h
        revert this
        rcases parseExpr R f st e with x | x | _ | _ <;> rcases runExpr R' st e' with y | y | _ | _ <;> intro h
        · exact relRun_raise
        · exact absurd h id
        · exact absurd h id
        · exact absurd h id
        · exact absurd h id
        · exact ⟨rfl, rfl⟩
        all_goals first | exact h | exact False.elim h
      | @rep e e' mn mx h _ => rw [parseExpr, runExpr_rep]; exact ih5 e e' mn mx st 0 [] [] ht h rfl
      | @left n b e' hd hg hu _ =>
        rw [parseExpr_ruleName]
        exact ih1' st n b e' ht hd hg hu
      | @right n e b' hd hg hu ih =>
        rw [runExpr_ruleName, runRule_eq]
        simp only [ht, Bool.false_eq_true, if_false, hg]
        have hn : n ∉ keep := fun h => hk n h hd
        revert ih
        rcases parseExpr R (f + 1) st e with x | x | _ | _ <;> rcases runExpr R' st b' with y | y | _ | _ <;> intro h <;>
          first
          | exact ⟨h.1, h.2.trans (passList_dissolved hn).symm⟩
          | exact h
    · intro st es es' acc acc' ht hu hacc
      cases hu with
      | and_nil => rw [parseAnd, runAnd_nil]; exact ⟨rfl, hacc⟩
      | @and_cons e e' es es' h1 h2 =>
        rw [parseAnd, runAnd_cons]
        have := ih2 st e e' ht h1
        have htr := fun x (h : parseExpr R f st e = .ok x) => untraced_expr ht h
        revert this htr
        rcases parseExpr R f st e with x | x | _ | _ <;> rcases runExpr R' st e' with y | y | _ | _ <;> intro h htr
        · obtain ⟨h3, h4⟩ := h
          obtain ⟨x1, x2⟩ := x
          obtain ⟨y1, y2⟩ := y
          simp only at h3 h4 ⊢
          rw [← h3]
          exact ih3 x1 es es' _ _ (htr _ rfl) h2 (by rw [passList_append, passList_append, hacc, h4])
        all_goals first | exact h | exact False.elim h
    · intro st es es' acc ht hu
      cases hu with
      | or_nil =>
        rw [runOr_nil]
        cases acc with
        | none => rw [parseOr]; exact relRun_raise
        | some e => rw [parseOr]; rfl
      | @or_cons e e' es es' h1 h2 =>
        rw [parseOr, runOr_cons]
        have := ih2 st e e' ht h1
        revert this
        rcases parseExpr R f st e with x | x | _ | _ <;> rcases runExpr R' st e' with y | y | _ | _ <;> intro h
        · exact h
        · exact False.elim h
        · exact False.elim h
        · exact False.elim h
        · exact False.elim h
        · have h3 : x = y := h
          rw [← h3]
          simp only
          split
          · rfl
          · exact ih4 st es es' _ ht h2
        all_goals first | exact h | exact False.elim h
    · intro e e' mn mx st k acc acc' ht hu hacc
      rw [parseRepeat, runRepeat_eq]
      have := ih2 st e e' ht hu
      have htr := fun x (h : parseExpr R f st e = .ok x) => untraced_expr ht h
      have htm : (touchMaxBound mx k = true) = (mx = some (k + 1)) := by
        cases mx with
        | none => simp [touchMaxBound]
        | some m => simp [touchMaxBound]; exact eq_comm
      have hb : (bigMinBound mn k = true) = (mn ≤ k) := by simp [bigMinBound]
      revert this htr
      rcases parseExpr R f st e with x | x | _ | _ <;> rcases runExpr R' st e' with y | y | _ | _ <;> intro h htr
      · obtain ⟨h3, h4⟩ := h
        obtain ⟨x1, x2⟩ := x
        obtain ⟨y1, y2⟩ := y
        simp only [htm] at h3 h4 ⊢
        rw [← h3]
        have hap : Node.passList keep (acc ++ x2) = Node.passList keep (acc' ++ y2) := by
          rw [passList_append, passList_append, hacc, h4]
        split
        · exact ⟨rfl, hap⟩
        · exact ih5 e e' mn mx x1 (k + 1) _ _ (htr _ rfl) hu hap
      · exact False.elim h
      · exact False.elim h
      · exact False.elim h
      · exact False.elim h
      · have h3 : x = y := h
        rw [← h3]
        simp only [hb]
        split
        · split
          · rfl
          · exact ⟨rfl, hacc⟩
        · rfl
      all_goals first | exact h | exact False.elim h

theorem inline_main (hR : UnfoldsRules R R' D S) (hk : ∀ n ∈ keep, ¬ D n) (s : Str) :
    RelRule keep (runRule R (Status.init s) c!"main") (runRule R' (Status.init s) c!"main") := by
  rcases runRule_elim R (Status.init s) c!"main" with h | ⟨f, h⟩
  · rw [h]; trivial
  · rw [← h]; exact (inline_runs hR hk f).1.1 _ _ rfl hR.main

end DP
