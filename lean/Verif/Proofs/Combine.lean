import Verif.Spec.Rename
import Verif.Proofs.Bounds

/-!
# Matching with rules under other names
-/

namespace DP
open Spec

/-- the outcome with other names of rules -/
def renOutcome (σ : Str → Str) : Outcome → Outcome
  | .ok r ns => .ok r (renNodes σ ns)
  | .fail => .fail
  | .crit w q => .crit (renDescr σ w) q

theorem renNodes_app (σ) (a b) : renNodes σ (a ++ b) = renNodes σ a ++ renNodes σ b := by
  induction a with
  | nil => rfl
  | cons x xs ih => rw [List.cons_append, renNodes, ih, renNodes, List.cons_append]

mutual
theorem ren_effective (σ) : ∀ e, effective (renExpr σ e) = renExpr σ (effective e)
  | .simple _ => by simp [renExpr, effective]
  | .and es => by simp [renExpr, effective, rens_effectives σ es]
  | .or es => by simp [renExpr, effective, rens_effectives σ es]
  | .not e => by simp [renExpr, effective, ren_effective σ e]
  | .rep e mn none => by simp [renExpr, effective, ren_effective σ e]
  | .rep e mn (some 0) => by simp [renExpr, effective, ren_effective σ e]
  | .rep e mn (some (m + 1)) => by simp [renExpr, effective, ren_effective σ e]
  | .ruleName _ => by simp [renExpr, effective]
theorem rens_effectives (σ) : ∀ es, effectives (renExprs σ es) = renExprs σ (effectives es)
  | [] => by simp [renExprs, effectives]
  | e :: es => by simp [renExprs, effectives, ren_effective σ e, rens_effectives σ es]
end

/-- `G'` has the rules of `G` under other names -/
def Copies (σ : Str → Str) (G G' : Str → Option Expr) : Prop := ∀ n, G' (σ n) = (G n).map (renExpr σ)

theorem copies_some {σ G G' n e} (h : Copies σ G G') (hg : G n = some e) : G' (σ n) = some (renExpr σ e) := by rw [h, hg]; rfl

theorem copies_peg {σ G G'} (h : Copies σ G G') {e s o} (hp : Peg G e s o) : Peg G' (renExpr σ e) s (renOutcome σ o) := by
  induction hp with
  | lit_ok l r => exact .lit_ok l r
  | lit_fail l s hn => exact .lit_fail l s hn
  | class_ok cs rs c r hc => exact .class_ok cs rs c r hc
  | class_fail cs rs c r hc => exact .class_fail cs rs c r hc
  | class_end cs rs => exact .class_end cs rs
  | dot_ok c r => exact .dot_ok c r
  | dot_end => exact .dot_end
  | eof_ok => exact .eof_ok
  | eof_fail c r => exact .eof_fail c r
  | error m s => exact .error m s
  | and_nil s => exact .and_nil s
  | and_ok _ _ ih1 ih2 =>
    simp only [renExpr, renExprs, renOutcome, renNodes_app] at *
    exact .and_ok ih1 ih2
  | and_fail _ ih => exact .and_fail ih
  | and_crit _ ih => exact .and_crit ih
  | and_tail_fail _ _ ih1 ih2 => exact .and_tail_fail ih1 ih2
  | and_tail_crit _ _ ih1 ih2 => exact .and_tail_crit ih1 ih2
  | or_nil s => exact .or_nil s
  | or_ok _ ih => exact .or_ok ih
  | or_crit _ ih => exact .or_crit ih
  | or_next _ _ ih1 ih2 => exact .or_next ih1 ih2
  | not_ok _ ih => exact .not_ok ih
  | not_fail _ ih => exact .not_fail ih
  | not_crit _ ih => exact .not_crit ih
  | rep_full e mn s => exact .rep_full _ mn s
  | rep_more hm _ _ ih1 ih2 =>
    simp only [renExpr, renOutcome, renNodes_app] at *
    exact .rep_more hm ih1 ih2
  | rep_stop hm _ ih => exact .rep_stop hm ih
  | rep_few hm h0 _ ih => exact .rep_few hm h0 ih
  | rep_crit hm _ ih => exact .rep_crit hm ih
  | rep_more_fail hm _ _ ih1 ih2 => exact .rep_more_fail hm ih1 ih2
  | rep_more_crit hm _ _ ih1 ih2 => exact .rep_more_crit hm ih1 ih2
  | call_ok hg _ ih => exact .call_ok (copies_some h hg) ih
  | call_fail hg _ ih => exact .call_fail (copies_some h hg) ih
  | call_crit hg _ ih => exact .call_crit (copies_some h hg) ih
  | @call_missing n s hg => exact .call_missing (by rw [h, hg]; rfl)

theorem peg_copies {σ G G'} (h : Copies σ G G') {e' s o'} (hp : Peg G' e' s o') : ∀ e, e' = renExpr σ e →
    ∃ o, Peg G e s o ∧ o' = renOutcome σ o := by
  induction hp with
  | lit_ok l r => intro e he; cases e <;> simp only [renExpr, reduceCtorEq, Expr.simple.injEq] at he; subst he; exact ⟨_, .lit_ok l r, rfl⟩
  | lit_fail l s hn => intro e he; cases e <;> simp only [renExpr, reduceCtorEq, Expr.simple.injEq] at he; subst he; exact ⟨_, .lit_fail l s hn, rfl⟩
  | class_ok cs rs c r hc => intro e he; cases e <;> simp only [renExpr, reduceCtorEq, Expr.simple.injEq] at he; subst he; exact ⟨_, .class_ok cs rs c r hc, rfl⟩
  | class_fail cs rs c r hc => intro e he; cases e <;> simp only [renExpr, reduceCtorEq, Expr.simple.injEq] at he; subst he; exact ⟨_, .class_fail cs rs c r hc, rfl⟩
  | class_end cs rs => intro e he; cases e <;> simp only [renExpr, reduceCtorEq, Expr.simple.injEq] at he; subst he; exact ⟨_, .class_end cs rs, rfl⟩
  | dot_ok c r => intro e he; cases e <;> simp only [renExpr, reduceCtorEq, Expr.simple.injEq] at he; subst he; exact ⟨_, .dot_ok c r, rfl⟩
  | dot_end => intro e he; cases e <;> simp only [renExpr, reduceCtorEq, Expr.simple.injEq] at he; subst he; exact ⟨_, .dot_end, rfl⟩
  | eof_ok => intro e he; cases e <;> simp only [renExpr, reduceCtorEq, Expr.simple.injEq] at he; subst he; exact ⟨_, .eof_ok, rfl⟩
  | eof_fail c r => intro e he; cases e <;> simp only [renExpr, reduceCtorEq, Expr.simple.injEq] at he; subst he; exact ⟨_, .eof_fail c r, rfl⟩
  | error m s => intro e he; cases e <;> simp only [renExpr, reduceCtorEq, Expr.simple.injEq] at he; subst he; exact ⟨_, .error m s, rfl⟩
  | and_nil s =>
    intro e he
    cases e <;> simp only [renExpr, reduceCtorEq, Expr.and.injEq] at he
    rename_i es
    cases es <;> simp only [renExprs, reduceCtorEq] at he
    exact ⟨_, .and_nil s, rfl⟩
  | and_ok _ _ ih1 ih2 =>
    intro e he
    cases e <;> simp only [renExpr, reduceCtorEq, Expr.and.injEq] at he
    rename_i es
    cases es <;> simp only [renExprs, reduceCtorEq, List.cons.injEq] at he
    obtain ⟨rfl, rfl⟩ := he
    obtain ⟨o1, p1, e1⟩ := ih1 _ rfl
    obtain ⟨o2, p2, e2⟩ := ih2 (.and _) rfl
    cases o1 <;> simp only [renOutcome, reduceCtorEq, Outcome.ok.injEq] at e1
    obtain ⟨rfl, rfl⟩ := e1
    cases o2 <;> simp only [renOutcome, reduceCtorEq, Outcome.ok.injEq] at e2
    obtain ⟨rfl, rfl⟩ := e2
    exact ⟨_, .and_ok p1 p2, by rw [renOutcome, renNodes_app]⟩
  | and_fail _ ih =>
    intro e he
    cases e <;> simp only [renExpr, reduceCtorEq, Expr.and.injEq] at he
    rename_i es
    cases es <;> simp only [renExprs, reduceCtorEq, List.cons.injEq] at he
    obtain ⟨rfl, rfl⟩ := he
    obtain ⟨o1, p1, e1⟩ := ih _ rfl
    cases o1 <;> simp only [renOutcome, reduceCtorEq] at e1
    exact ⟨_, .and_fail p1, rfl⟩
  | and_crit _ ih =>
    intro e he
    cases e <;> simp only [renExpr, reduceCtorEq, Expr.and.injEq] at he
    rename_i es
    cases es <;> simp only [renExprs, reduceCtorEq, List.cons.injEq] at he
    obtain ⟨rfl, rfl⟩ := he
    obtain ⟨o1, p1, e1⟩ := ih _ rfl
    cases o1 <;> simp only [renOutcome, reduceCtorEq, Outcome.crit.injEq] at e1
    obtain ⟨rfl, rfl⟩ := e1
    exact ⟨_, .and_crit p1, rfl⟩
  | and_tail_fail _ _ ih1 ih2 =>
    intro e he
    cases e <;> simp only [renExpr, reduceCtorEq, Expr.and.injEq] at he
    rename_i es
    cases es <;> simp only [renExprs, reduceCtorEq, List.cons.injEq] at he
    obtain ⟨rfl, rfl⟩ := he
    obtain ⟨o1, p1, e1⟩ := ih1 _ rfl
    obtain ⟨o2, p2, e2⟩ := ih2 (.and _) rfl
    cases o1 <;> simp only [renOutcome, reduceCtorEq, Outcome.ok.injEq] at e1
    obtain ⟨rfl, rfl⟩ := e1
    cases o2 <;> simp only [renOutcome, reduceCtorEq] at e2
    exact ⟨_, .and_tail_fail p1 p2, rfl⟩
  | and_tail_crit _ _ ih1 ih2 =>
    intro e he
    cases e <;> simp only [renExpr, reduceCtorEq, Expr.and.injEq] at he
    rename_i es
    cases es <;> simp only [renExprs, reduceCtorEq, List.cons.injEq] at he
    obtain ⟨rfl, rfl⟩ := he
    obtain ⟨o1, p1, e1⟩ := ih1 _ rfl
    obtain ⟨o2, p2, e2⟩ := ih2 (.and _) rfl
    cases o1 <;> simp only [renOutcome, reduceCtorEq, Outcome.ok.injEq] at e1
    obtain ⟨rfl, rfl⟩ := e1
    cases o2 <;> simp only [renOutcome, reduceCtorEq, Outcome.crit.injEq] at e2
    obtain ⟨rfl, rfl⟩ := e2
    exact ⟨_, .and_tail_crit p1 p2, rfl⟩
  | or_nil s =>
    intro e he
    cases e <;> simp only [renExpr, reduceCtorEq, Expr.or.injEq] at he
    rename_i es
    cases es <;> simp only [renExprs, reduceCtorEq] at he
    exact ⟨_, .or_nil s, rfl⟩
  | or_ok _ ih =>
    intro e he
    cases e <;> simp only [renExpr, reduceCtorEq, Expr.or.injEq] at he
    rename_i es
    cases es <;> simp only [renExprs, reduceCtorEq, List.cons.injEq] at he
    obtain ⟨rfl, rfl⟩ := he
    obtain ⟨o1, p1, e1⟩ := ih _ rfl
    cases o1 <;> simp only [renOutcome, reduceCtorEq, Outcome.ok.injEq] at e1
    obtain ⟨rfl, rfl⟩ := e1
    exact ⟨_, .or_ok p1, rfl⟩
  | or_crit _ ih =>
    intro e he
    cases e <;> simp only [renExpr, reduceCtorEq, Expr.or.injEq] at he
    rename_i es
    cases es <;> simp only [renExprs, reduceCtorEq, List.cons.injEq] at he
    obtain ⟨rfl, rfl⟩ := he
    obtain ⟨o1, p1, e1⟩ := ih _ rfl
    cases o1 <;> simp only [renOutcome, reduceCtorEq, Outcome.crit.injEq] at e1
    obtain ⟨rfl, rfl⟩ := e1
    exact ⟨_, .or_crit p1, rfl⟩
  | or_next _ _ ih1 ih2 =>
    intro e he
    cases e <;> simp only [renExpr, reduceCtorEq, Expr.or.injEq] at he
    rename_i es
    cases es <;> simp only [renExprs, reduceCtorEq, List.cons.injEq] at he
    obtain ⟨rfl, rfl⟩ := he
    obtain ⟨o1, p1, e1⟩ := ih1 _ rfl
    obtain ⟨o2, p2, rfl⟩ := ih2 (.or _) rfl
    cases o1 <;> simp only [renOutcome, reduceCtorEq] at e1
    exact ⟨_, .or_next p1 p2, rfl⟩
  | not_ok _ ih =>
    intro e he
    cases e <;> simp only [renExpr, reduceCtorEq, Expr.not.injEq] at he
    subst he
    obtain ⟨o1, p1, e1⟩ := ih _ rfl
    cases o1 <;> simp only [renOutcome, reduceCtorEq] at e1
    exact ⟨_, .not_ok p1, rfl⟩
  | not_fail _ ih =>
    intro e he
    cases e <;> simp only [renExpr, reduceCtorEq, Expr.not.injEq] at he
    subst he
    obtain ⟨o1, p1, e1⟩ := ih _ rfl
    cases o1 <;> simp only [renOutcome, reduceCtorEq] at e1
    exact ⟨_, .not_fail p1, rfl⟩
  | not_crit _ ih =>
    intro e he
    cases e <;> simp only [renExpr, reduceCtorEq, Expr.not.injEq] at he
    subst he
    obtain ⟨o1, p1, e1⟩ := ih _ rfl
    cases o1 <;> simp only [renOutcome, reduceCtorEq] at e1
    exact ⟨_, .not_crit p1, rfl⟩
  | rep_full e mn s =>
    intro e he
    cases e <;> simp only [renExpr, reduceCtorEq, Expr.rep.injEq] at he
    obtain ⟨rfl, rfl, rfl⟩ := he
    exact ⟨_, .rep_full _ _ s, rfl⟩
  | rep_more hm _ _ ih1 ih2 =>
    intro e he
    cases e <;> simp only [renExpr, reduceCtorEq, Expr.rep.injEq] at he
    obtain ⟨rfl, rfl, rfl⟩ := he
    obtain ⟨o1, p1, e1⟩ := ih1 _ rfl
    obtain ⟨o2, p2, e2⟩ := ih2 (.rep _ _ _) rfl
    cases o1 <;> simp only [renOutcome, reduceCtorEq, Outcome.ok.injEq] at e1
    obtain ⟨rfl, rfl⟩ := e1
    cases o2 <;> simp only [renOutcome, reduceCtorEq, Outcome.ok.injEq] at e2
    obtain ⟨rfl, rfl⟩ := e2
    exact ⟨_, .rep_more hm p1 p2, by rw [renOutcome, renNodes_app]⟩
  | rep_stop hm _ ih =>
    intro e he
    cases e <;> simp only [renExpr, reduceCtorEq, Expr.rep.injEq] at he
    obtain ⟨rfl, rfl, rfl⟩ := he
    obtain ⟨o1, p1, e1⟩ := ih _ rfl
    cases o1 <;> simp only [renOutcome, reduceCtorEq] at e1
    exact ⟨_, .rep_stop hm p1, rfl⟩
  | rep_few hm h0 _ ih =>
    intro e he
    cases e <;> simp only [renExpr, reduceCtorEq, Expr.rep.injEq] at he
    obtain ⟨rfl, rfl, rfl⟩ := he
    obtain ⟨o1, p1, e1⟩ := ih _ rfl
    cases o1 <;> simp only [renOutcome, reduceCtorEq] at e1
    exact ⟨_, .rep_few hm h0 p1, rfl⟩
  | rep_crit hm _ ih =>
    intro e he
    cases e <;> simp only [renExpr, reduceCtorEq, Expr.rep.injEq] at he
    obtain ⟨rfl, rfl, rfl⟩ := he
    obtain ⟨o1, p1, e1⟩ := ih _ rfl
    cases o1 <;> simp only [renOutcome, reduceCtorEq, Outcome.crit.injEq] at e1
    obtain ⟨rfl, rfl⟩ := e1
    exact ⟨_, .rep_crit hm p1, rfl⟩
  | rep_more_fail hm _ _ ih1 ih2 =>
    intro e he
    cases e <;> simp only [renExpr, reduceCtorEq, Expr.rep.injEq] at he
    obtain ⟨rfl, rfl, rfl⟩ := he
    obtain ⟨o1, p1, e1⟩ := ih1 _ rfl
    obtain ⟨o2, p2, e2⟩ := ih2 (.rep _ _ _) rfl
    cases o1 <;> simp only [renOutcome, reduceCtorEq, Outcome.ok.injEq] at e1
    obtain ⟨rfl, rfl⟩ := e1
    cases o2 <;> simp only [renOutcome, reduceCtorEq] at e2
    exact ⟨_, .rep_more_fail hm p1 p2, rfl⟩
  | rep_more_crit hm _ _ ih1 ih2 =>
    intro e he
    cases e <;> simp only [renExpr, reduceCtorEq, Expr.rep.injEq] at he
    obtain ⟨rfl, rfl, rfl⟩ := he
    obtain ⟨o1, p1, e1⟩ := ih1 _ rfl
    obtain ⟨o2, p2, e2⟩ := ih2 (.rep _ _ _) rfl
    cases o1 <;> simp only [renOutcome, reduceCtorEq, Outcome.ok.injEq] at e1
    obtain ⟨rfl, rfl⟩ := e1
    cases o2 <;> simp only [renOutcome, reduceCtorEq, Outcome.crit.injEq] at e2
    obtain ⟨rfl, rfl⟩ := e2
    exact ⟨_, .rep_more_crit hm p1 p2, rfl⟩
  | call_ok hg _ ih =>
    intro e he
    cases e <;> simp only [renExpr, reduceCtorEq, Expr.ruleName.injEq] at he
    subst he
    rw [h, Option.map_eq_some_iff] at hg
    obtain ⟨x, hx, rfl⟩ := hg
    obtain ⟨o1, p1, e1⟩ := ih _ rfl
    cases o1 <;> simp only [renOutcome, reduceCtorEq, Outcome.ok.injEq] at e1
    obtain ⟨rfl, rfl⟩ := e1
    exact ⟨_, .call_ok hx p1, rfl⟩
  | call_fail hg _ ih =>
    intro e he
    cases e <;> simp only [renExpr, reduceCtorEq, Expr.ruleName.injEq] at he
    subst he
    rw [h, Option.map_eq_some_iff] at hg
    obtain ⟨x, hx, rfl⟩ := hg
    obtain ⟨o1, p1, e1⟩ := ih _ rfl
    cases o1 <;> simp only [renOutcome, reduceCtorEq] at e1
    exact ⟨_, .call_fail hx p1, rfl⟩
  | call_crit hg _ ih =>
    intro e he
    cases e <;> simp only [renExpr, reduceCtorEq, Expr.ruleName.injEq] at he
    subst he
    rw [h, Option.map_eq_some_iff] at hg
    obtain ⟨x, hx, rfl⟩ := hg
    obtain ⟨o1, p1, e1⟩ := ih _ rfl
    cases o1 <;> simp only [renOutcome, reduceCtorEq, Outcome.crit.injEq] at e1
    obtain ⟨rfl, rfl⟩ := e1
    exact ⟨_, .call_crit hx p1, rfl⟩
  | call_missing hg =>
    intro e he
    cases e <;> simp only [renExpr, reduceCtorEq, Expr.ruleName.injEq] at he
    subst he
    rw [h, Option.map_eq_none_iff] at hg
    exact ⟨_, .call_missing hg, rfl⟩

end DP
