import Verif.Proofs.PegSlow
import Verif.Spec.Effort

/-!
# PEG texts that nest deep

Each opening parenthesis of a PEG text takes the parser through `expr`, `or`, `and`, `rep_or_neg`, `atom_or_par` and `parenth`
of src/peg/rules.rs, that is thirteen calls inside of one another, before it comes to the next one.
-/

namespace DP
open Spec PegRules Spec.Syntax

theorem deep_rule {G n e s c d} (hg : G n = some e) (h : Effort G (.one (.ruleName n)) s c d) :
    ∃ c' d', Effort G (.one e) s c' d' ∧ d' + 1 ≤ d := by
  cases h with
  | missing h => rw [hg] at h; cases h
  | call h hb => rw [hg] at h; cases h; exact ⟨_, _, hb, by omega⟩

theorem deep_and {G es s c d} (h : Effort G (.one (.and es)) s c d) : ∃ c' d', Effort G (.seq es) s c' d' ∧ d' + 1 ≤ d := by
  cases h with
  | and h => exact ⟨_, _, h, by omega⟩

theorem deep_or {G es s c d} (h : Effort G (.one (.or es)) s c d) : ∃ c' d', Effort G (.alt es) s c' d' ∧ d' + 1 ≤ d := by
  cases h with
  | or h => exact ⟨_, _, h, by omega⟩

theorem deep_rep {G e mn mx s c d} (hx : mx ≠ some 0) (h : Effort G (.one (.rep e mn mx)) s c d) : ∃ c' d', Effort G (.one e) s c' d' ∧ d' + 1 ≤ d := by
  cases h with
  | rep h =>
    cases h with
    | loop_full => exact absurd rfl hx
    | loop_more _ h => exact ⟨_, _, h, by omega⟩
    | loop_stop _ h => exact ⟨_, _, h, by omega⟩

theorem deep_head {G e es s c d} (h : Effort G (.seq (e :: es)) s c d) : ∃ c' d', Effort G (.one e) s c' d' ∧ d' ≤ d := by
  cases h with
  | seq_more h => exact ⟨_, _, h, by omega⟩
  | seq_stop h => exact ⟨_, _, h, by omega⟩

theorem deep_tail {G e es s c d r ns} (h : Effort G (.seq (e :: es)) s c d) (hp : Peg G e s (.ok r ns)) :
    ∃ c' d', Effort G (.seq es) r c' d' ∧ d' ≤ d := by
  cases h with
  | seq_more _ hp' h => cases peg_det hp hp'; exact ⟨_, _, h, by omega⟩
  | seq_stop _ hp' ho => exact absurd (peg_det hp' hp) (ho _ _)

theorem deep_first {G e es s c d} (h : Effort G (.alt (e :: es)) s c d) : ∃ c' d', Effort G (.one e) s c' d' ∧ d' ≤ d := by
  cases h with
  | alt_more h => exact ⟨_, _, h, by omega⟩
  | alt_stop h => exact ⟨_, _, h, by omega⟩

theorem deep_other {G e es s c d} (h : Effort G (.alt (e :: es)) s c d) (hp : Peg G e s .fail) :
    ∃ c' d', Effort G (.alt es) s c' d' ∧ d' ≤ d := by
  cases h with
  | alt_more _ _ h => exact ⟨_, _, h, by omega⟩
  | alt_stop _ hp' ho => exact absurd (peg_det hp' hp) ho

theorem par_not_atom (r : Str) : Peg GP (.ruleName c!"atom") ('(' :: r) .fail := by
  refine .call_fail gp_atom (.or_next ?_ (.or_next ?_ (.or_next ?_ (.or_next ?_ (.or_nil _)))))
  · refine .call_fail gp_literal (.or_next ?_ (.or_next ?_ (.or_nil _)))
    · exact .call_fail gp_lit_noesc (.and_fail (.call_fail gp_sq (.lit_fail _ _ (by simp))))
    · exact .call_fail gp_lit_esc (.and_fail (.call_fail gp_dq (.lit_fail _ _ (by simp))))
  · exact .call_fail gp_match (.and_fail (.lit_fail _ _ (by simp)))
  · refine .call_fail gp_rule_name (.and_tail_fail (.rep_stop (by simp) (.lit_fail _ _ (by simp))) (.and_fail ?_))
    exact .call_fail gp_symbol (.and_fail (.class_fail _ _ _ _ (by unfold InClass; decide)))
  · exact .call_fail gp_dot (.lit_fail _ _ (by simp))

theorem par_not_error (r : Str) : Peg GP (.ruleName c!"error") ('(' :: r) .fail :=
  .call_fail gp_error (.and_fail (.lit_fail _ _ (by simp)))

theorem par_deep {r : Str} (hr : NoGap r) {c d} (h : Effort GP (.one (.ruleName c!"expr")) ('(' :: r) c d) :
    ∃ c' d', Effort GP (.one (.ruleName c!"expr")) r c' d' ∧ d' + 13 ≤ d := by
  obtain ⟨_, d1, h, l1⟩ := deep_rule gp_expr h
  obtain ⟨_, d2, h, l2⟩ := deep_rule gp_or h
  obtain ⟨_, d3, h, l3⟩ := deep_and h
  obtain ⟨_, d4, h, l4⟩ := deep_head h
  obtain ⟨_, d5, h, l5⟩ := deep_rule gp_and h
  obtain ⟨_, d6, h, l6⟩ := deep_or h
  obtain ⟨_, d7, h, l7⟩ := deep_other h (par_not_error r)
  obtain ⟨_, d8, h, l8⟩ := deep_first h
  obtain ⟨_, d9, h, l9⟩ := deep_and h
  obtain ⟨_, d10, h, l10⟩ := deep_head h
  obtain ⟨_, d11, h, l11⟩ := deep_rule gp_rep_or_neg h
  obtain ⟨_, d12, h, l12⟩ := deep_or h
  obtain ⟨_, d13, h, l13⟩ := deep_first h
  obtain ⟨_, d14, h, l14⟩ := deep_and h
  obtain ⟨_, d15, h, l15⟩ := deep_head h
  obtain ⟨_, d16, h, l16⟩ := deep_rule gp_atom_or_par h
  obtain ⟨_, d17, h, l17⟩ := deep_or h
  obtain ⟨_, d18, h, l18⟩ := deep_other h (par_not_atom r)
  obtain ⟨_, d19, h, l19⟩ := deep_first h
  obtain ⟨_, d20, h, l20⟩ := deep_rule gp_parenth h
  obtain ⟨_, d21, h, l21⟩ := deep_and h
  obtain ⟨_, d22, h, l22⟩ := deep_tail h (.lit_ok c!"(" r)
  obtain ⟨_, hw⟩ := ws_none hr
  obtain ⟨_, d23, h, l23⟩ := deep_tail h hw
  obtain ⟨_, d24, h, l24⟩ := deep_head h
  exact ⟨_, _, h, by omega⟩

theorem noGap_pars {q : Str} (hq : NoGap q) : ∀ n, NoGap (List.replicate n '(' ++ q)
  | 0 => hq
  | n + 1 => NoGap.of (by decide)

theorem pars_deep {q : Str} (hq : NoGap q) (n : Nat) {c d} (h : Effort GP (.one (.ruleName c!"expr")) (List.replicate n '(' ++ q) c d) :
    13 * n ≤ d := by
  induction n generalizing c d with
  | zero => omega
  | succ n ih =>
    obtain ⟨_, d', h', hd⟩ := par_deep (noGap_pars hq n) h
    have := ih h'
    omega

/-- a rule whose right-hand side starts with `n` opening parentheses -/
theorem deep_main {q : Str} (hq : NoGap q) (n : Nat) {c d}
    (h : Effort GP (.one (.ruleName c!"main")) (c!"main=" ++ (List.replicate n '(' ++ q)) c d) : 13 * n + 6 ≤ d := by
  have hg := noGap_pars hq n
  have key : ∀ {c d}, _ → _ := fun {c d} h => pars_deep hq n (c := c) (d := d) h
  generalize List.replicate n '(' ++ q = t at h key hg
  obtain ⟨_, d1, h, l1⟩ := deep_rule gp_main h
  obtain ⟨_, d2, h, l2⟩ := deep_rule gp_grammar h
  obtain ⟨_, d3, h, l3⟩ := deep_rep (by simp) h
  obtain ⟨_, d4, h, l4⟩ := deep_or h
  obtain ⟨_, d5, h, l5⟩ := deep_first h
  obtain ⟨_, d6, h, l6⟩ := deep_rule gp_rule h
  obtain ⟨_, d7, h, l7⟩ := deep_and h
  obtain ⟨_, p1⟩ := ws_none (r := c!"main=" ++ t) (NoGap.of (by decide))
  obtain ⟨_, d8, h, l8⟩ := deep_tail h p1
  obtain ⟨_, p2, _⟩ := name_reads (n := c!"main") (r := c!"=" ++ t) main_valid (nameEnd_gaps [] (.inl rfl) t)
  obtain ⟨_, d9, h, l9⟩ := deep_tail h p2
  obtain ⟨_, p3⟩ := ws_none (r := c!"=" ++ t) (NoGap.of (by decide))
  obtain ⟨_, d10, h, l10⟩ := deep_tail h p3
  obtain ⟨_, d11, h, l11⟩ := deep_tail h (.lit_ok c!"=" t)
  obtain ⟨_, p4⟩ := ws_none hg
  obtain ⟨_, d12, h, l12⟩ := deep_tail h p4
  obtain ⟨_, d13, h, l13⟩ := deep_head h
  have := key h
  omega

end DP
