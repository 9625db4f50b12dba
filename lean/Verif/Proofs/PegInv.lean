/-
The built-in PEG grammar, rule by rule, and inversion lemmas for derivations.
-/
import Verif.Proofs.Bounds
import Verif.Model.PegRules

namespace DP
open Spec PegRules

/-- the built-in grammar for PEG texts -/
abbrev GP : Str → Option Expr := grammar parsePeg

theorem gp_dot : GP c!"dot" = some e_dot := rfl
theorem gp_module : GP c!"module" = some e_module := rfl
theorem gp_mline_comment : GP c!"mline_comment" = some e_mline_comment := rfl
theorem gp_one : GP c!"_1" = some e__1 := rfl
theorem gp_comment : GP c!"comment" = some e_comment := rfl
theorem gp_or : GP c!"or" = some e_or := rfl
theorem gp_literal : GP c!"literal" = some e_literal := rfl
theorem gp_mod_name : GP c!"mod_name" = some e_mod_name := rfl
theorem gp_esc_char : GP c!"esc_char" = some e_esc_char := rfl
theorem gp_atom : GP c!"atom" = some e_atom := rfl
theorem gp_hex_char : GP c!"hex_char" = some e_hex_char := rfl
theorem gp_parenth : GP c!"parenth" = some e_parenth := rfl
theorem gp_and : GP c!"and" = some e_and := rfl
theorem gp_rule : GP c!"rule" = some e_rule := rfl
theorem gp_grammar : GP c!"grammar" = some e_grammar := rfl
theorem gp_match : GP c!"match" = some e_match := rfl
theorem gp_rep_or_neg : GP c!"rep_or_neg" = some e_rep_or_neg := rfl
theorem gp_weol : GP c!"_eol" = some e__eol := rfl
theorem gp_line_comment : GP c!"line_comment" = some e_line_comment := rfl
theorem gp_lit_noesc : GP c!"lit_noesc" = some e_lit_noesc := rfl
theorem gp_rule_name : GP c!"rule_name" = some e_rule_name := rfl
theorem gp_dq : GP c!"_\"" = some e__dq := rfl
theorem gp_mchars : GP c!"mchars" = some e_mchars := rfl
theorem gp_expr : GP c!"expr" = some e_expr := rfl
theorem gp_symbol : GP c!"symbol" = some e_symbol := rfl
theorem gp_error : GP c!"error" = some e_error := rfl
theorem gp_sq : GP c!"_'" = some e__sq := rfl
theorem gp_eol : GP c!"eol" = some e_eol := rfl
theorem gp_lit_esc : GP c!"lit_esc" = some e_lit_esc := rfl
theorem gp_mbetween : GP c!"mbetween" = some e_mbetween := rfl
theorem gp_ws : GP c!"_" = some e__ := rfl
theorem gp_main : GP c!"main" = some e_main := rfl
theorem gp_atom_or_par : GP c!"atom_or_par" = some e_atom_or_par := rfl

/-! ### Inversion of successful derivations -/

section
variable {G : Str → Option Expr}

theorem inv_lit {l s r ns} (h : Peg G (.simple (.literal l)) s (.ok r ns)) : s = l ++ r ∧ ns = [.val l] := by
  cases h; exact ⟨rfl, rfl⟩

theorem inv_class {cs rs s r ns} (h : Peg G (.simple (.mtch cs rs)) s (.ok r ns)) :
    ∃ c, s = c :: r ∧ InClass cs rs c ∧ ns = [.val [c]] := by
  cases h with
  | class_ok _ _ c _ h => exact ⟨c, rfl, h, rfl⟩

theorem inv_dot {s r ns} (h : Peg G (.simple .dot) s (.ok r ns)) : ∃ c, s = c :: r ∧ ns = [.val [c]] := by
  cases h with
  | dot_ok c _ => exact ⟨c, rfl, rfl⟩

theorem inv_and_nil {s r ns} (h : Peg G (.and []) s (.ok r ns)) : s = r ∧ ns = [] := by
  cases h; exact ⟨rfl, rfl⟩

theorem inv_and {e es s r ns} (h : Peg G (.and (e :: es)) s (.ok r ns)) :
    ∃ q n1 n2, Peg G e s (.ok q n1) ∧ Peg G (.and es) q (.ok r n2) ∧ ns = n1 ++ n2 := by
  cases h with
  | and_ok h1 h2 => exact ⟨_, _, _, h1, h2, rfl⟩

theorem inv_or {es s r ns} (h : Peg G (.or es) s (.ok r ns)) : ∃ e ∈ es, Peg G e s (.ok r ns) := by
  generalize he : Expr.or es = x at h
  generalize ho : Outcome.ok r ns = o at h
  induction h generalizing es with
  | or_ok h => cases he; cases ho; exact ⟨_, by simp, h⟩
  | or_next _ _ _ ih2 =>
    cases he
    obtain ⟨e, hm, h⟩ := ih2 rfl ho
    exact ⟨e, by simp [hm], h⟩
  | _ => first | (cases ho; done) | (cases he; done)

theorem inv_or_cons {e es s r ns} (h : Peg G (.or (e :: es)) s (.ok r ns)) :
    Peg G e s (.ok r ns) ∨ (Peg G e s .fail ∧ Peg G (.or es) s (.ok r ns)) := by
  cases h with
  | or_ok h => exact Or.inl h
  | or_next h1 h2 => exact Or.inr ⟨h1, h2⟩

theorem inv_or_nil {s r ns} (h : Peg G (.or []) s (.ok r ns)) : False := by cases h

theorem inv_not {e s r ns} (h : Peg G (.not e) s (.ok r ns)) : s = r ∧ ns = [] ∧ ∀ r' ns', ¬ Peg G e s (.ok r' ns') := by
  have aux : ∀ {o r' ns'}, Peg G e s o → Peg G e s (.ok r' ns') → o = .ok r' ns' :=
    fun h1 h2 => peg_det h1 h2
  cases h with
  | not_fail h => exact ⟨rfl, rfl, fun r' ns' h' => by cases aux h h'⟩
  | not_crit h => exact ⟨rfl, rfl, fun r' ns' h' => by cases aux h h'⟩

theorem inv_call {n e s r ns} (hg : G n = some e) (h : Peg G (.ruleName n) s (.ok r ns)) :
    ∃ cs, ns = [.rule n cs] ∧ Peg G e s (.ok r cs) := by
  cases h with
  | call_ok hg' h => rw [hg] at hg'; cases hg'; exact ⟨_, rfl, h⟩

/-- consecutive matches -/
inductive Star (G : Str → Option Expr) (e : Expr) : Str → List (List Node) → Str → Prop
  | nil (s) : Star G e s [] s
  | cons {s q r ns nss} : Peg G e s (.ok q ns) → Star G e q nss r → Star G e s (ns :: nss) r

theorem inv_rep {e mn s r ns} (h : Peg G (.rep e mn none) s (.ok r ns)) :
    ∃ nss, Star G e s nss r ∧ ns = nss.flatten ∧ mn ≤ nss.length ∧ Peg G e r .fail := by
  generalize he : Expr.rep e mn none = x at h
  generalize ho : Outcome.ok r ns = o at h
  induction h generalizing mn ns r with
  | rep_full => cases he
  | rep_more _ h1 _ _ ih2 =>
    cases he; cases ho
    obtain ⟨nss, h3, h4, h5, h6⟩ := ih2 rfl rfl
    exact ⟨_ :: nss, .cons h1 h3, by rw [h4]; simp, by simp; omega, h6⟩
  | rep_stop _ h => cases he; cases ho; exact ⟨[], .nil _, rfl, by simp, h⟩
  | _ => first | (cases ho; done) | (cases he; done)

theorem inv_opt {e s r ns} (h : Peg G (.rep e 0 (some 1)) s (.ok r ns)) :
    Peg G e s (.ok r ns) ∨ (s = r ∧ ns = [] ∧ Peg G e s .fail) := by
  cases h with
  | rep_more _ h1 h2 =>
    cases h2 with
    | rep_full => left; simpa using h1
    | rep_more h => simp at h
    | rep_stop h => simp at h
  | rep_stop _ h => exact Or.inr ⟨rfl, rfl, h⟩

/-! ### Building derivations -/

theorem star_rep {e s nss r} (h : Star G e s nss r) (hf : Peg G e r .fail) (mn) (hm : mn ≤ nss.length) :
    Peg G (.rep e mn none) s (.ok r nss.flatten) := by
  induction h generalizing mn with
  | nil s => cases Nat.le_zero.mp hm; exact .rep_stop (by simp) hf
  | cons h1 _ ih =>
    rw [List.flatten_cons]
    exact .rep_more (by simp) h1 (ih hf _ (by simp at hm; omega))

theorem opt_some {e s r ns} (h : Peg G e s (.ok r ns)) : Peg G (.rep e 0 (some 1)) s (.ok r ns) := by
  have := Peg.rep_more (mx := some 1) (mn := 0) (by simp) h (.rep_full _ _ _)
  simpa using this

theorem opt_none {e s} (h : Peg G e s .fail) : Peg G (.rep e 0 (some 1)) s (.ok s []) :=
  .rep_stop (by simp) h

end
end DP
