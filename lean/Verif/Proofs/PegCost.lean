/-
The work for reading a PEG text.
-/
import Verif.Proofs.Bill
import Verif.Proofs.PegTree

namespace DP
open Spec PegRules

theorem peg_rep {n e b mn} (hg : GP n = some e) (hs : Sub (.rep b mn none) e) : ¬ CanEmpty GP b := by
  have := pegWellFormed.no_empty_repetition n e b mn
  rw [denotes_peg] at this
  exact this hg hs

/-! ### The rules that are not recursive -/

theorem flat_eol : Flat GP (.ruleName c!"eol") :=
  flat_call gp_eol (flat_or (flat_simple _) (flat_or (flat_simple _) (flat_or (flat_simple _) flat_or_nil)))

theorem flat_sq : Flat GP (.ruleName c!"_'") := flat_call gp_sq (flat_simple _)
theorem flat_dq : Flat GP (.ruleName c!"_\"") := flat_call gp_dq (flat_simple _)

theorem fair_line : Fair GP (.ruleName c!"line_comment") :=
  have h := flat_and (flat_not flat_eol) (flat_and (flat_simple .dot) flat_and_nil)
  fair_call gp_line_comment (fair_and (flat_simple _).fair (fair_and
    (fair_star (peg_rep gp_line_comment (.and (by simp) (.refl (.rep _ 0 none)))) h.fair h.sharp) (fair_and flat_eol.fair flat_and_nil.fair)))

theorem fair_mline : Fair GP (.ruleName c!"mline_comment") :=
  have h := flat_and (flat_not (flat_simple (.literal c!"*/"))) (flat_and (flat_simple .dot) flat_and_nil)
  fair_call gp_mline_comment (fair_and (flat_simple _).fair (fair_and
    (fair_star (peg_rep gp_mline_comment (.and (by simp) (.refl (.rep _ 0 none)))) h.fair h.sharp) (fair_and (flat_simple _).fair flat_and_nil.fair)))

theorem fair_comment : Fair GP (.ruleName c!"comment") := by
  refine fair_call gp_comment ?_
  obtain ⟨K, h⟩ := fair_line
  obtain ⟨K', h'⟩ := fair_mline
  refine ⟨K + K' + 8, fun s c o hb => ?_⟩
  rw [Nat.add_mul, Nat.add_mul]
  cases hb with
  | or_yes h1 => have := h _ _ _ h1; omega
  | or_stop h1 => have := h _ _ _ h1; omega
  | or_no h1 h2 =>
    rename_i a b
    by_cases hs : c!"//" <+: s
    · -- the other kind of comment does not begin here
      obtain ⟨t, rfl⟩ := hs
      have hm : ∀ c o, Bill GP (.ruleName c!"mline_comment") (c!"//" ++ t) c o → c ≤ 3 ∧ o = .no := by
        intro c o hb
        cases hb with
        | missing hg => cases hg
        | call hg hb =>
          cases hg
          cases hb with
          | and_yes h1 => cases bill_as h1 (.lit_fail _ _ (by simp))
          | and_no h1 => cases bill_simple h1; exact ⟨by omega, rfl⟩
          | and_stop h1 => cases bill_as h1 (.lit_fail _ _ (by simp))
      cases h2 with
      | or_yes h2 => cases (hm _ _ h2).2
      | or_stop h2 => cases (hm _ _ h2).2
      | or_no h2 h3 =>
        have := (hm _ _ h2).1
        cases h3
        have := h _ _ _ h1
        simp only [paid] at this ⊢
        omega
    · have : a ≤ 3 := by
        cases h1 with
        | call hg hb =>
          cases hg
          cases hb with
          | and_yes h1 => cases bill_as h1 (.lit_fail _ _ hs)
          | and_no h1 => cases bill_simple h1; omega
      cases h2 with
      | or_yes h2 => have := h' _ _ _ h2; omega
      | or_stop h2 => have := h' _ _ _ h2; omega
      | or_no h2 h3 => have := h' _ _ _ h2; cases h3; omega

theorem fair_blank : Fair GP (.or [.simple (.literal c!" "), .ruleName c!"eol", .ruleName c!"comment"]) := by
  refine fair_or (flat_simple _).fair (flat_simple _).sharp (fair_or flat_eol.fair flat_eol.sharp ?_)
  obtain ⟨K, h⟩ := fair_comment
  refine ⟨K + 1, fun s c o hb => ?_⟩
  rw [Nat.succ_mul]
  cases hb with
  | or_yes h1 => have := h _ _ _ h1; omega
  | or_stop h1 => have := h _ _ _ h1; omega
  | or_no h1 h2 => have := h _ _ _ h1; cases h2; omega

theorem lin_ws : Lin GP (.ruleName c!"_") := lin_call gp_ws (lin_star (peg_rep gp_ws (.refl (.rep _ 0 none))) fair_blank)

theorem peek_comment : peek GP 9 (.isNot ['/']) (.ruleName c!"comment") = some (false, 8) := by decide +kernel

/-- blanks that are not followed by a `/` cost what they are long -/
theorem thrift_ws : ∃ W, ∀ s c r, Bill GP (.ruleName c!"_") s c (.yes r) → r.head? ≠ some '/' → c ≤ W * (s.length - r.length + 1) := by
  obtain ⟨K, h⟩ := fair_blank
  obtain ⟨E, hE⟩ := flat_eol
  refine ⟨2 * K + (E + 20), fun s c r hb hr => ?_⟩
  cases hb with
  | call hg hb =>
    cases hg
    obtain ⟨q, c1, o1, hq, hn, hl, ho, hs, hc⟩ := star_rounds (peg_rep gp_ws (.refl (.rep _ 0 none))) (fun s c r h1 => h _ _ _ h1) hb
    cases ho r rfl
    have h1 : c1 ≤ E + 15 := by
      cases hq with
      | or_yes _ => exact absurd rfl (hn _)
      | or_stop _ => cases hs.mpr rfl
      | or_no h1 h2 =>
        have := bill_simple h1
        cases h2 with
        | or_yes _ => exact absurd rfl (hn _)
        | or_stop _ => cases hs.mpr rfl
        | or_no h2 h3 =>
          have := hE _ _ _ h2
          cases h3 with
          | or_yes _ => exact absurd rfl (hn _)
          | or_stop _ => cases hs.mpr rfl
          | or_no h3 h4 =>
            have := (peek_sound peek_comment (by intro y hy; cases List.mem_singleton.1 hy; exact hr) h3).1
            cases h4
            omega
    rw [Nat.add_mul, Nat.mul_add]
    have : E + 20 ≤ (E + 20) * (s.length - r.length + 1) := Nat.le_mul_of_pos_right _ (by omega)
    omega

theorem lin_weol : Lin GP (.ruleName c!"_eol") := by
  refine lin_call gp_weol (lin_and (lin_star (peg_rep gp_weol (.and (List.mem_cons_self ..) (.refl (.rep _ 0 none))))
    (fair_or (flat_simple _).fair (flat_simple _).sharp ?_)) (lin_and flat_eol.lin flat_and_nil.lin))
  obtain ⟨K, h⟩ := fair_comment
  refine ⟨K + 1, fun s c o hb => ?_⟩
  rw [Nat.succ_mul]
  cases hb with
  | or_yes h1 => have := h _ _ _ h1; omega
  | or_stop h1 => have := h _ _ _ h1; omega
  | or_no h1 h2 => have := h _ _ _ h1; cases h2; omega

theorem fair_symbol : Fair GP (.ruleName c!"symbol") :=
  fair_call gp_symbol (fair_and (flat_simple _).fair (fair_and
    (fair_star (peg_rep gp_symbol (.and (by simp) (.refl (.rep _ 0 none)))) (flat_simple _).fair (flat_simple _).sharp) flat_and_nil.fair))

theorem lin_mod_name : Lin GP (.ruleName c!"mod_name") := lin_call gp_mod_name fair_symbol.lin

theorem lin_rule_name : Lin GP (.ruleName c!"rule_name") :=
  lin_call gp_rule_name (lin_and (lin_opt (flat_simple _).lin) (lin_and fair_symbol.lin (lin_and
    (lin_star (peg_rep gp_rule_name (.and (by simp) (.refl (.rep _ 0 none)))) (fair_and (flat_simple _).fair (fair_and fair_symbol flat_and_nil.fair)))
    flat_and_nil.lin)))

theorem flat_esc : Flat GP (.ruleName c!"esc_char") :=
  flat_call gp_esc_char (flat_or (flat_simple _) (flat_or (flat_simple _) (flat_or (flat_simple _) (flat_or (flat_simple _)
    (flat_or (flat_simple _) flat_or_nil)))))

theorem flat_hex : Flat GP (.ruleName c!"hex_char") :=
  flat_call gp_hex_char (flat_and (flat_simple _) (flat_and (flat_simple _) (flat_and (flat_simple _) flat_and_nil)))

theorem lin_literal : Lin GP (.ruleName c!"literal") :=
  lin_call gp_literal (lin_or
    (lin_call gp_lit_noesc (lin_and flat_sq.lin (lin_and (lin_star (peg_rep gp_lit_noesc (.and (by simp) (.refl (.rep _ 0 none))))
      (flat_and (flat_not flat_sq) (flat_and (flat_simple _) flat_and_nil)).fair) (lin_and flat_sq.lin flat_and_nil.lin))))
    (lin_or
      (lin_call gp_lit_esc (lin_and flat_dq.lin (lin_and (lin_star (peg_rep gp_lit_esc (.and (by simp) (.refl (.rep _ 0 none))))
        (flat_or flat_esc (flat_or flat_hex (flat_or (flat_and (flat_not flat_dq) (flat_and (flat_simple _) flat_and_nil)) flat_or_nil))).fair)
        (lin_and flat_dq.lin flat_and_nil.lin))))
      flat_or_nil.lin))

theorem flat_mbetween : Flat GP (.ruleName c!"mbetween") :=
  flat_call gp_mbetween (flat_and (flat_simple _) (flat_and (flat_simple _) (flat_and (flat_simple _) flat_and_nil)))

theorem lin_match : Lin GP (.ruleName c!"match") :=
  lin_call gp_match (lin_and (flat_simple _).lin (lin_and
    (lin_or (lin_and
        (lin_call gp_mchars (lin_star (peg_rep gp_mchars (.refl (.rep _ 1 none)))
          (flat_and (flat_not (flat_simple _)) (flat_and (flat_not (flat_and (flat_simple _) (flat_and (flat_simple _) flat_and_nil)))
            (flat_and (flat_simple _) flat_and_nil))).fair))
        (lin_and (lin_star (peg_rep gp_match (.and (List.mem_cons_of_mem _ (List.mem_cons_self ..)) (.or (List.mem_cons_self ..)
          (.and (List.mem_cons_of_mem _ (List.mem_cons_self ..)) (.refl (.rep _ 0 none)))))) flat_mbetween.fair) flat_and_nil.lin))
      (lin_or (lin_star (peg_rep gp_match (.and (List.mem_cons_of_mem _ (List.mem_cons_self ..)) (.or (List.mem_cons_of_mem _ (List.mem_cons_self ..))
          (.refl (.rep _ 1 none))))) flat_mbetween.fair) flat_or_nil.lin))
    (lin_and (flat_simple _).lin flat_and_nil.lin)))

theorem lin_atom : Lin GP (.ruleName c!"atom") :=
  lin_call gp_atom (lin_or lin_literal (lin_or lin_match (lin_or lin_rule_name (lin_or (lin_call gp_dot (flat_simple _).lin) flat_or_nil.lin))))

theorem lin_error : Lin GP (.ruleName c!"error") :=
  lin_call gp_error (lin_and (flat_simple _).lin (lin_and lin_ws (lin_and (flat_simple _).lin (lin_and lin_ws (lin_and lin_literal
    (lin_and lin_ws (lin_and (flat_simple _).lin flat_and_nil.lin)))))))

/-! ### What failing costs -/

theorem opt_not_no {G e s c} (h : Bill G (.rep e 0 (some 1)) s c .no) : False := by
  cases h with
  | rep_yes _ _ h => cases (rep_none_zero h).2
  | rep_few _ h => omega

theorem peek_error_par : peek GP 30 (.is (some '(')) (.ruleName c!"error") = some (false, 3) := by decide +kernel
theorem peek_error_not : peek GP 30 (.is (some '!')) (.ruleName c!"error") = some (false, 3) := by decide +kernel
theorem peek_atom_par : peek GP 30 (.is (some '(')) (.ruleName c!"atom") = some (false, 24) := by decide +kernel
theorem peek_aop_not : peek GP 30 (.is (some '!')) (.ruleName c!"atom_or_par") = some (false, 29) := by decide +kernel
theorem peek_parenth : peek GP 30 (.isNot ['(']) (.ruleName c!"parenth") = some (false, 3) := by decide +kernel
theorem peek_not : peek GP 30 (.isNot ['!']) (.and [(.simple (.literal c!"!")), (.ruleName c!"atom_or_par")]) = some (false, 2) := by
  decide +kernel
theorem peek_expr_slash : peek GP 40 (.is (some '/')) (.ruleName c!"expr") = some (false, 43) := by decide +kernel

theorem holds_not {x : Char} {s : Str} (h : s.head? ≠ some x) : (Next.isNot [x]).holds s := by
  intro y hy; cases List.mem_singleton.1 hy; exact h

section
variable {L W F m : Nat}

/-- failing, given what a failing `parenth` costs -/
theorem fail_layers (hA : ∀ s c o, Bill GP (.ruleName c!"atom") s c o → c ≤ L * (s.length + 1))
    (hE : ∀ s c o, Bill GP (.ruleName c!"error") s c o → c ≤ L * (s.length + 1)) (hF : 2 * L ≤ F)
    (hP : ∀ s c, s.length ≤ m → Bill GP (.ruleName c!"parenth") s c .no → c ≤ F * s.length + 200) :
    ∀ s c, s.length ≤ m →
      (Bill GP (.ruleName c!"atom_or_par") s c .no → c ≤ F * s.length + 2 * L + 300) ∧
      (Bill GP (.ruleName c!"rep_or_neg") s c .no → c ≤ F * s.length + 2 * L + 400) ∧
      (Bill GP (.ruleName c!"and") s c .no → c ≤ F * s.length + 2 * L + 500) ∧
      (Bill GP (.ruleName c!"or") s c .no → c ≤ F * s.length + 2 * L + 510) ∧
      (Bill GP (.ruleName c!"expr") s c .no → c ≤ F * s.length + 2 * L + 520) := by
  have hL : ∀ s : Str, L * (s.length + 1) + L * (s.length + 1) ≤ F * s.length + 2 * L := fun s => by
    rw [← Nat.add_mul, ← Nat.two_mul, Nat.mul_succ]
    exact Nat.add_le_add_right (Nat.mul_le_mul_right s.length hF) _
  have aop : ∀ s c, s.length ≤ m → Bill GP (.ruleName c!"atom_or_par") s c .no →
      c ≤ F * s.length + 2 * L + 300 ∧ (s.head? ≠ some '(' → c ≤ L * (s.length + 1) + 10) := by
    intro s c hs hb
    cases hb with
    | call hg hb =>
      cases hg
      cases hb with
      | or_no h1 h2 =>
        cases h2 with
        | or_no h2 h3 =>
          cases h3
          by_cases hh : s.head? = some '('
          · have := (peek_sound peek_atom_par hh h1).1
            have := hP _ _ hs h2
            exact ⟨by omega, fun h => absurd hh h⟩
          · have := hA _ _ _ h1
            have := (peek_sound peek_parenth (holds_not hh) h2).1
            have := hL s
            exact ⟨by omega, fun _ => by omega⟩
  have ron : ∀ s c, s.length ≤ m → Bill GP (.ruleName c!"rep_or_neg") s c .no →
      c ≤ F * s.length + 2 * L + 400 ∧ (s.head? ≠ some '(' → s.head? ≠ some '!' → c ≤ L * (s.length + 1) + 30) := by
    intro s c hs hb
    cases hb with
    | call hg hb =>
      cases hg
      cases hb with
      | or_no h1 h2 =>
        rename_i a b
        have h3 : ∃ c, a = c + 1 ∧ Bill GP (.ruleName c!"atom_or_par") s c .no := by
          cases h1 with
          | and_no h1 => exact ⟨_, rfl, h1⟩
          | and_yes h1 h2 =>
            cases h2 with
            | and_no h2 => exact (opt_not_no h2).elim
            | and_yes h2 h3 => cases h3
        obtain ⟨c3, rfl, h3⟩ := h3
        cases h2 with
        | or_no h4 h5 =>
          cases h5
          by_cases hh : s.head? = some '!'
          · have := (peek_sound peek_aop_not hh h3).1
            cases h4 with
            | and_no h4 => have := bill_simple h4; exact ⟨by omega, fun _ h => absurd hh h⟩
            | and_yes h4 h5 =>
              have := bill_simple h4
              have hl := bill_le h4
              have hF' := Nat.mul_le_mul_left F hl
              cases h5 with
              | and_no h5 => have := (aop _ _ (hl.trans hs) h5).1; exact ⟨by omega, fun _ h => absurd hh h⟩
              | and_yes h5 h6 => cases h6
          · have := (peek_sound peek_not (holds_not hh) h4).1
            have h6 := aop _ _ hs h3
            exact ⟨by omega, fun h _ => by have := h6.2 h; omega⟩
  have and : ∀ s c, s.length ≤ m → Bill GP (.ruleName c!"and") s c .no → c ≤ F * s.length + 2 * L + 500 := by
    intro s c hs hb
    cases hb with
    | call hg hb =>
      cases hg
      cases hb with
      | or_no h1 h2 =>
        cases h2 with
        | or_no h2 h3 =>
          cases h3
          cases h2 with
          | and_yes _ h3 =>
            cases h3 with
            | and_no h3 => exact (star_not_no h3).elim
            | and_yes _ h4 => cases h4
          | and_no h2 =>
            have h4 := ron _ _ hs h2
            by_cases h5 : s.head? = some '('
            · have := (peek_sound peek_error_par h5 h1).1; omega
            · by_cases h6 : s.head? = some '!'
              · have := (peek_sound peek_error_not h6 h1).1; omega
              · have := hE _ _ _ h1
                have := h4.2 h5 h6
                have := hL s
                omega
  have or : ∀ s c, s.length ≤ m → Bill GP (.ruleName c!"or") s c .no → c ≤ F * s.length + 2 * L + 510 := by
    intro s c hs hb
    cases hb with
    | call hg hb =>
      cases hg
      cases hb with
      | and_no h1 => have := and _ _ hs h1; omega
      | and_yes _ h2 =>
        cases h2 with
        | and_no h2 => exact (opt_not_no h2).elim
        | and_yes _ h3 => cases h3
  intro s c hs
  refine ⟨fun h => (aop s c hs h).1, fun h => (ron s c hs h).1, and s c hs, or s c hs, fun h => ?_⟩
  cases h with
  | call hg h => cases hg; have := or _ _ hs h; omega

/-- a failing `parenth` -/
theorem fail_parenth (hA : ∀ s c o, Bill GP (.ruleName c!"atom") s c o → c ≤ L * (s.length + 1))
    (hE : ∀ s c o, Bill GP (.ruleName c!"error") s c o → c ≤ L * (s.length + 1))
    (hV : ∀ s c o, Bill GP (.ruleName c!"_") s c o → c ≤ L * (s.length + 1))
    (hW : ∀ s c r, Bill GP (.ruleName c!"_") s c (.yes r) → r.head? ≠ some '/' → c ≤ W * (s.length - r.length + 1))
    (hF : W + 2 * L + 600 ≤ F) :
    ∀ n s c, s.length = n → Bill GP (.ruleName c!"parenth") s c .no → c ≤ F * s.length + 200 := by
  intro n
  induction n using Nat.strongRecOn with
  | ind n ih =>
    intro s c hn hb
    cases hb with
    | call hg hb =>
      cases hg
      cases hb with
      | and_no h1 => have := bill_simple h1; omega
      | @and_yes _ _ _ t _ _ _ h1 h2 =>
        obtain ⟨hc1, h3⟩ := bill_lit h1
        rcases h3 with ⟨t', rfl, h3⟩ | ⟨_, h3⟩
        · injection h3 with h3
          subst h3
          have hl : (c!"(" ++ t).length = t.length + 1 := rfl
          rw [hl] at hn ⊢
          rw [Nat.mul_succ]
          cases h2 with
          | and_no h2 =>
            cases h2 with
            | call hg h2 => cases hg; exact (star_not_no h2).elim
          | @and_yes _ _ _ r _ _ _ h2 h3 =>
            have hr := bill_le h2
            cases h3 with
            | and_no h3 =>
              by_cases hh : r.head? = some '/'
              · have := (peek_sound peek_expr_slash hh h3).1
                have h4 := hV _ _ _ h2
                have h5 := Nat.mul_le_mul_right (t.length + 1) (show L ≤ F by omega)
                rw [Nat.mul_succ F] at h5
                omega
              · have h4 := hW _ _ _ h2 hh
                have h5 := (fail_layers hA hE (by omega) (m := n - 1) (fun s c hs hb => ih s.length (by omega) s c rfl hb) r _ (by omega)).2.2.2.2 h3
                have h6 : W * (t.length - r.length) ≤ F * (t.length - r.length) := Nat.mul_le_mul_right _ (by omega)
                have h8 : F * (t.length - r.length) + F * r.length = F * t.length := by rw [← Nat.mul_add]; congr 1; omega
                rw [Nat.mul_succ] at h4
                omega
            | and_yes h3 h4 =>
              cases h4 with
              | and_no h4 =>
                cases h4 with
                | call hg h4 => cases hg; exact (star_not_no h4).elim
              | and_yes h4 h5 =>
                cases h5 with
                | and_no h5 =>
                  cases h5 with
                  | or_no h5 h6 =>
                    cases h6 with
                    | or_no h6 h7 => cases bill_as h6 (.error _ _)
                | and_yes h5 h6 => cases h6
        · cases h3

end

/-! ### What matching costs -/

theorem peg_consumes {x} (h : nulE [c!"_"] x = false) : ¬ CanEmpty GP x := by
  intro hc
  have h1 : ∀ ne ∈ parsePeg.entries, nulE [c!"_"] ne.2 = true → [c!"_"].contains ne.1 = true := by decide +kernel
  rw [nulE_of_canEmpty (nul := [c!"_"]) (fun n e hg => h1 (n, e) (mem_of_lookup hg)) hc] at h
  cases h

/-- the rules that are not recursive, and the condition in `and` -/
def leafRules : List Expr :=
  [.ruleName c!"_", .ruleName c!"_1", .ruleName c!"_eol", .ruleName c!"error", .ruleName c!"atom", .ruleName c!"rule_name", .ruleName c!"mod_name",
    .not (.and [(.ruleName c!"rule_name"), (.ruleName c!"_"), (.or [(.simple (.literal c!"=")), (.simple (.literal c!"{"))])])]

/-- the rules of expressions -/
def inners : List Expr :=
  [.ruleName c!"expr", .ruleName c!"or", .ruleName c!"and", .ruleName c!"rep_or_neg", .ruleName c!"atom_or_par", .ruleName c!"parenth"]

/-- what the leafRules cost and what failing costs, in texts of at most `n` characters; `u` is more than that -/
structure Prices (n l f u P : Nat) : Prop where
  leaf : ∀ x ∈ leafRules, ∀ s c o, s.length ≤ n → Bill GP x s c o → c ≤ l
  fail : ∀ x ∈ inners, ∀ s c, s.length ≤ n → Bill GP x s c .no → c ≤ f
  unit : l + f + 10 ≤ u
  price : P = 100 * u

/-- `c` and `S` more is at most `P` for each character consumed -/
def Priced (P S : Nat) (s : Str) (c : Nat) : Verdict → Prop
  | .yes r => c + S ≤ (s.length - r.length) * P
  | .no => True
  | .stop => c + S ≤ (s.length + 1) * P

section
variable {n l f u P : Nat}

theorem pay {a b P : Nat} (h : a + 1 ≤ b) : a * P + P ≤ b * P := by
  rw [← Nat.succ_mul]; exact Nat.mul_le_mul_right _ h

theorem parts_yes {a b c P : Nat} (h : b ≤ a) (h' : c ≤ b) : (a - b) * P + (b - c) * P = (a - c) * P := by
  rw [← Nat.add_mul]; congr 1; omega

theorem parts_stop {a b P : Nat} (h : b ≤ a) : (a - b) * P + (b + 1) * P = (a + 1) * P := by
  rw [← Nat.add_mul]; congr 1; omega

theorem price_stop (hp : Prices n l f u P) {s : Str} {c S} (h : c + S ≤ 100 * u) : Priced P S s c .stop := by
  have := pay (P := P) (show 0 + 1 ≤ s.length + 1 by omega)
  have := hp.price
  simp only [Priced]
  omega

theorem price_one (hp : Prices n l f u P) {s r : Str} {c S} (h : c + S ≤ 100 * u) (hl : r.length < s.length) : Priced P S s c (.yes r) := by
  have := pay (P := P) (show 0 + 1 ≤ s.length - r.length by omega)
  have := hp.price
  simp only [Priced]
  omega

/-- a leaf at the beginning of a sequence -/
theorem leaf_step (hp : Prices n l f u P) {x es s c o} (hx : x ∈ leafRules) (hs : s.length ≤ n) (h : Bill GP (.and (x :: es)) s c o) :
    (o = .no ∧ c ≤ l + 1) ∨ (o = .stop ∧ c ≤ l + 1) ∨
      ∃ r c' c1, Bill GP x s c1 (.yes r) ∧ Bill GP (.and es) r c' o ∧ c ≤ l + c' ∧ r.length ≤ s.length := by
  cases h with
  | and_yes h1 h2 => exact .inr (.inr ⟨_, _, _, h1, h2, Nat.add_le_add_right (hp.leaf _ hx _ _ _ hs h1) _, bill_le h1⟩)
  | and_no h1 => exact .inl ⟨rfl, Nat.add_le_add_right (hp.leaf _ hx _ _ _ hs h1) _⟩
  | and_stop h1 => exact .inr (.inl ⟨rfl, Nat.add_le_add_right (hp.leaf _ hx _ _ _ hs h1) _⟩)

/-- a literal at the beginning of a sequence -/
theorem lit_step {x es s c o} (h : Bill GP (.and (.simple (.literal x) :: es)) s c o) :
    (o = .no ∧ c = 2) ∨ ∃ r c', s = x ++ r ∧ Bill GP (.and es) r c' o ∧ c = 1 + c' := by
  cases h with
  | and_yes h1 h2 =>
    obtain ⟨rfl, ⟨r, hr, h3⟩ | ⟨_, h3⟩⟩ := bill_lit h1
    · cases h3; exact .inr ⟨_, _, hr, h2, rfl⟩
    · cases h3
  | and_no h1 => obtain ⟨rfl, _⟩ := bill_lit h1; exact .inl ⟨rfl, rfl⟩
  | and_stop h1 => obtain ⟨_, ⟨_, _, h3⟩ | ⟨_, h3⟩⟩ := bill_lit h1 <;> cases h3

theorem price_parenth (hp : Prices n l f u P) {s c o} (hs : s.length ≤ n)
    (ih : ∀ s', s'.length < s.length → ∀ c o, Bill GP (.ruleName c!"expr") s' c o → Priced P (10 * u) s' c o)
    (h : Bill GP (.ruleName c!"parenth") s c o) : Priced P (60 * u) s c o := by
  have hu := hp.unit
  have hP := hp.price
  cases h with
  | missing hg => cases hg
  | call hg h =>
    cases hg
    rcases lit_step h with ⟨rfl, _⟩ | ⟨t, c1, rfl, h1, rfl⟩
    · trivial
    have hl : (c!"(" ++ t).length = t.length + 1 := rfl
    rw [hl] at hs ih
    rcases leaf_step hp (by simp [leafRules]) (by omega) h1 with ⟨rfl, _⟩ | ⟨rfl, h2⟩ | ⟨r, c2, _, _, h2, h3, h4⟩
    · trivial
    · exact price_stop hp (by omega)
    cases h2 with
    | and_no _ => trivial
    | and_stop h2 =>
      have h5 := ih r (by omega) _ _ h2
      simp only [Priced, hl] at h5 ⊢
      have := pay (P := P) (show r.length + 1 + 1 ≤ t.length + 1 + 1 by omega)
      omega
    | and_yes h2 h6 =>
      have h5 := ih r (by omega) _ _ h2
      have h7 := bill_le h2
      rename_i q a b
      rcases leaf_step hp (by simp [leafRules]) (by omega) h6 with ⟨rfl, _⟩ | ⟨rfl, h8⟩ | ⟨r', c8, _, _, h8, h9, h10⟩
      · trivial
      · simp only [Priced, hl] at h5 ⊢
        have := pay (P := P) (show r.length - q.length + 1 ≤ t.length + 1 + 1 by omega)
        omega
      have h11 : c8 ≤ 5 ∧ o ≠ .no ∧ ∀ r, o = .yes r → r.length < r'.length := by
        cases h8 with
        | and_no h8 =>
          cases h8 with
          | or_no _ h8 =>
            cases h8 with
            | or_no h8 _ => cases bill_as h8 (.error _ _)
        | and_stop h8 =>
          cases h8 with
          | or_stop h8 => have := bill_simple h8; exact ⟨by omega, by simp, by simp⟩
          | or_no h8 h9 =>
            have := bill_simple h8
            cases h9 with
            | or_stop h10 => have := bill_simple h10; exact ⟨by omega, by simp, by simp⟩
            | or_no _ h10 => cases h10
        | and_yes h8 h9 =>
          cases h9
          cases h8 with
          | or_yes h8 =>
            have := bill_lt (peg_consumes rfl) h8
            have := bill_simple h8
            exact ⟨by omega, by simp, fun r hr => by cases hr; assumption⟩
          | or_no _ h8 =>
            cases h8 with
            | or_yes h8 => cases bill_as h8 (.error _ _)
            | or_no h8 _ => cases bill_as h8 (.error _ _)
      cases o with
      | no => exact absurd rfl h11.2.1
      | stop =>
        simp only [Priced, hl] at h5 ⊢
        have := pay (P := P) (show r.length - q.length + 1 ≤ t.length + 1 + 1 by omega)
        omega
      | yes z =>
        have h12 := h11.2.2 z rfl
        simp only [Priced, hl] at h5 ⊢
        have := pay (P := P) (show r.length - q.length + 1 ≤ t.length + 1 - z.length by omega)
        omega

theorem price_aop (hp : Prices n l f u P) {s c o} (hs : s.length ≤ n)
    (ih : ∀ c o, Bill GP (.ruleName c!"parenth") s c o → Priced P (60 * u) s c o)
    (h : Bill GP (.ruleName c!"atom_or_par") s c o) : Priced P (50 * u) s c o := by
  have hu := hp.unit
  have hP := hp.price
  have hA := hp.leaf (.ruleName c!"atom") (by simp [leafRules]) s
  cases h with
  | missing hg => cases hg
  | call hg h =>
    cases hg
    cases h with
    | or_yes h => have := hA _ _ hs h; exact price_one hp (by omega) (bill_lt (peg_consumes (by decide +kernel)) h)
    | or_stop h => have := hA _ _ hs h; exact price_stop hp (by omega)
    | or_no h1 h2 =>
      have := hA _ _ hs h1
      cases h2 with
      | or_yes h2 => have := ih _ _ h2; simp only [Priced] at this ⊢; omega
      | or_stop h2 => have := ih _ _ h2; simp only [Priced] at this ⊢; omega
      | or_no _ h3 => cases h3; trivial

theorem suffix_cost {s c o} (h : Bill GP (.and [.rep (.or [.simple (.literal c!"*"), .simple (.literal c!"+"), .simple (.literal c!"?")]) 0 (some 1)]) s c o) :
    c ≤ 10 ∧ ∃ q, o = .yes q := by
  have h1 : ∀ c o, Bill GP (.or [.simple (.literal c!"*"), .simple (.literal c!"+"), .simple (.literal c!"?")]) s c o → c ≤ 5 ∧ o ≠ .stop := by
    intro c o h
    have aux : ∀ l c o, Bill GP (.simple (.literal l)) s c o → c = 1 ∧ o ≠ .stop := fun l c o h => by
      obtain ⟨rfl, ⟨_, _, h3⟩ | ⟨_, h3⟩⟩ := bill_lit h <;> subst h3 <;> simp
    cases h with
    | or_yes h => have := aux _ _ _ h; exact ⟨by omega, by simp⟩
    | or_stop h => exact absurd rfl (aux _ _ _ h).2
    | or_no h1 h =>
      have := aux _ _ _ h1
      cases h with
      | or_yes h => have := aux _ _ _ h; exact ⟨by omega, by simp⟩
      | or_stop h => exact absurd rfl (aux _ _ _ h).2
      | or_no h1 h =>
        have := aux _ _ _ h1
        cases h with
        | or_yes h => have := aux _ _ _ h; exact ⟨by omega, by simp⟩
        | or_stop h => exact absurd rfl (aux _ _ _ h).2
        | or_no h1 h => have := aux _ _ _ h1; cases h; exact ⟨by omega, by simp⟩
  have h2 : ∀ c o, Bill GP (.rep (.or [.simple (.literal c!"*"), .simple (.literal c!"+"), .simple (.literal c!"?")]) 0 (some 1)) s c o →
      c ≤ 6 ∧ ∃ q, o = .yes q := by
    intro c o h
    cases h with
    | rep_yes _ h3 h4 => have := (h1 _ _ h3).1; obtain ⟨rfl, rfl⟩ := rep_none_zero h4; exact ⟨by omega, _, rfl⟩
    | rep_no _ h3 => have := (h1 _ _ h3).1; exact ⟨by omega, _, rfl⟩
    | rep_few _ h => omega
    | rep_stop _ h3 => exact absurd rfl (h1 _ _ h3).2
  cases h with
  | and_yes h3 h4 => have := (h2 _ _ h3).1; cases h4; exact ⟨by omega, _, rfl⟩
  | and_no h3 => obtain ⟨_, _, h⟩ := h2 _ _ h3; cases h
  | and_stop h3 => obtain ⟨_, _, h⟩ := h2 _ _ h3; cases h

theorem price_ron (hp : Prices n l f u P) {s c o} (hs : s.length ≤ n)
    (ih : ∀ s', s'.length ≤ s.length → ∀ c o, Bill GP (.ruleName c!"atom_or_par") s' c o → Priced P (50 * u) s' c o)
    (h : Bill GP (.ruleName c!"rep_or_neg") s c o) : Priced P (40 * u) s c o := by
  have hu := hp.unit
  have hP := hp.price
  have hf := hp.fail (.ruleName c!"atom_or_par") (by simp [inners]) s
  cases h with
  | missing hg => cases hg
  | call hg h =>
    cases hg
    cases h with
    | or_yes h =>
      cases h with
      | and_yes h1 h2 =>
        rename_i r q a b
        have h3 := ih _ (Nat.le_refl _) _ _ h1
        have h4 := suffix_cost h2
        have := bill_le h2
        have := Nat.mul_le_mul_right P (show s.length - q.length ≤ s.length - r.length by omega)
        simp only [Priced] at h3 ⊢
        omega
    | or_stop h =>
      cases h with
      | and_stop h1 => have := ih _ (Nat.le_refl _) _ _ h1; simp only [Priced] at this ⊢; omega
      | and_yes h1 h2 => obtain ⟨_, _, h⟩ := suffix_cost h2; cases h
    | or_no h1 h2 =>
      rename_i a b
      have h3 : a ≤ f + 1 := by
        cases h1 with
        | and_no h1 => exact Nat.add_le_add_right (hf _ hs h1) 1
        | and_yes _ h2 => obtain ⟨_, _, h⟩ := suffix_cost h2; cases h
      have h4 : ∀ c o, Bill GP (.and [(.simple (.literal c!"!")), (.ruleName c!"atom_or_par")]) s c o → Priced P (45 * u) s c o := by
        intro c o h
        rcases lit_step h with ⟨rfl, _⟩ | ⟨t, c1, rfl, h1, rfl⟩
        · trivial
        have hl : (c!"!" ++ t).length = t.length + 1 := rfl
        rw [hl] at ih
        cases h1 with
        | and_no _ => trivial
        | and_stop h1 =>
          have h5 := ih t (by omega) _ _ h1
          simp only [Priced, hl] at h5 ⊢
          have := pay (P := P) (show t.length + 1 + 1 ≤ t.length + 1 + 1 by omega)
          omega
        | and_yes h1 h2 =>
          have h5 := ih t (by omega) _ _ h1
          cases h2
          rename_i r _
          have := bill_le h1
          simp only [Priced, hl] at h5 ⊢
          have := pay (P := P) (show t.length - r.length + 1 ≤ t.length + 1 - r.length by omega)
          omega
      cases h2 with
      | or_no _ h5 => cases h5; trivial
      | or_yes h2 => have := h4 _ _ h2; simp only [Priced] at this ⊢; omega
      | or_stop h2 => have := h4 _ _ h2; simp only [Priced] at this ⊢; omega

/-- a round of the repetition in `and` -/
theorem price_round (hp : Prices n l f u P) {s c o} (hs : s.length ≤ n)
    (ih : ∀ s', s'.length ≤ s.length → ∀ c o, Bill GP (.ruleName c!"and") s' c o → Priced P (30 * u) s' c o)
    (h : Bill GP (.and [.ruleName c!"_1", .ruleName c!"_", .not (.and [(.ruleName c!"rule_name"), (.ruleName c!"_"),
      (.or [(.simple (.literal c!"=")), (.simple (.literal c!"{"))])]), .ruleName c!"and"]) s c o) :
    Priced P 0 s c o ∧ (o = .no → c ≤ 5 * u) := by
  have hu := hp.unit
  have hP := hp.price
  rcases leaf_step hp (by simp [leafRules]) hs h with ⟨rfl, _⟩ | ⟨rfl, h2⟩ | ⟨r1, c1, _, _, h1, _, l1⟩
  · exact ⟨trivial, fun _ => by omega⟩
  · exact ⟨price_stop hp (by omega), fun h => by cases h⟩
  rcases leaf_step hp (by simp [leafRules]) (by omega) h1 with ⟨rfl, _⟩ | ⟨rfl, h2⟩ | ⟨r2, c2, _, _, h2, _, l2⟩
  · exact ⟨trivial, fun _ => by omega⟩
  · exact ⟨price_stop hp (by omega), fun h => by cases h⟩
  rcases leaf_step hp (by simp [leafRules]) (by omega) h2 with ⟨rfl, _⟩ | ⟨rfl, h2⟩ | ⟨r3, c3, _, _, h3, _, l3⟩
  · exact ⟨trivial, fun _ => by omega⟩
  · exact ⟨price_stop hp (by omega), fun h => by cases h⟩
  cases h3 with
  | and_no h3 => have := hp.fail _ (by simp [inners]) _ _ (by omega) h3; exact ⟨trivial, fun _ => by omega⟩
  | and_stop h3 =>
    have h5 := ih r3 (by omega) _ _ h3
    refine ⟨?_, fun h => by cases h⟩
    simp only [Priced] at h5 ⊢
    have := Nat.mul_le_mul_right P (show r3.length + 1 ≤ s.length + 1 by omega)
    omega
  | @and_yes _ _ _ q _ _ _ h3 h4 =>
    have h5 := ih r3 (by omega) _ _ h3
    cases h4
    have := bill_le h3
    refine ⟨?_, fun h => by cases h⟩
    simp only [Priced] at h5 ⊢
    have := Nat.mul_le_mul_right P (show r3.length - q.length ≤ s.length - q.length by omega)
    omega

/-- rounds that are paid for by what they consume -/
theorem price_star {B X} (k : Nat) (hB : ∀ s, s.length ≤ k → ∀ c o, Bill GP B s c o → Priced P 0 s c o ∧ (o = .no → c ≤ X)) :
    ∀ {s c o mn}, s.length ≤ k → Bill GP (.rep B mn none) s c o →
      (∀ r, o = .yes r → c ≤ (s.length - r.length) * P + X + 1) ∧ c ≤ (s.length + 1) * P + X + 1 := by
  intro s c o mn hs h
  generalize hx : Expr.rep B mn none = x at h
  induction h generalizing mn with
  | rep_full => cases hx
  | rep_yes hm h1 h2 _ ih2 =>
    cases hx
    rename_i t r a b p _
    have h3 := (hB _ hs _ _ h1).1
    have hl := bill_le h1
    have h4 := ih2 (hl.trans hs) rfl
    simp only [Priced] at h3
    have h5 := parts_stop (P := P) hl
    refine ⟨fun z hz => ?_, by omega⟩
    cases hz
    have h6 := h4.1 z rfl
    have := parts_yes (P := P) hl (bill_le h2)
    omega
  | rep_no hm h1 =>
    cases hx
    have := (hB _ hs _ _ h1).2 rfl
    exact ⟨fun r hr => by omega, by omega⟩
  | rep_few hm _ h1 =>
    cases hx
    have := (hB _ hs _ _ h1).2 rfl
    exact ⟨fun r hr => by omega, by omega⟩
  | rep_stop hm h1 =>
    cases hx
    have := (hB _ hs _ _ h1).1
    simp only [Priced] at this
    exact ⟨fun r hr => (by cases hr), by omega⟩
  | _ => cases hx

theorem price_and (hp : Prices n l f u P) {s c o} (hs : s.length ≤ n)
    (ih : ∀ s', s'.length < s.length → ∀ c o, Bill GP (.ruleName c!"and") s' c o → Priced P (30 * u) s' c o)
    (ih' : ∀ c o, Bill GP (.ruleName c!"rep_or_neg") s c o → Priced P (40 * u) s c o)
    (h : Bill GP (.ruleName c!"and") s c o) : Priced P (30 * u) s c o := by
  have hu := hp.unit
  have hP := hp.price
  have hE := hp.leaf (.ruleName c!"error") (by simp [leafRules]) s
  cases h with
  | missing hg => cases hg
  | call hg h =>
    cases hg
    cases h with
    | or_yes h => have := hE _ _ hs h; exact price_one hp (by omega) (bill_lt (peg_consumes (by decide +kernel)) h)
    | or_stop h => have := hE _ _ hs h; exact price_stop hp (by omega)
    | or_no h1 h2 =>
      have := hE _ _ hs h1
      have h3 : ∀ c o, Bill GP (.and [(.ruleName c!"rep_or_neg"), (.rep (.and [(.ruleName c!"_1"), (.ruleName c!"_"),
          (.not (.and [(.ruleName c!"rule_name"), (.ruleName c!"_"), (.or [(.simple (.literal c!"=")), (.simple (.literal c!"{"))])])),
          (.ruleName c!"and")]) 0 none)]) s c o → Priced P (34 * u) s c o := by
        intro c o h
        cases h with
        | and_no _ => trivial
        | and_stop h => have := ih' _ _ h; simp only [Priced] at this ⊢; omega
        | and_yes h4 h5 =>
          rename_i r a b
          have h6 := ih' _ _ h4
          have hl := bill_le h4
          simp only [Priced] at h6
          have hlt : r.length < s.length := by
            refine Nat.lt_of_le_of_ne hl fun he => ?_
            rw [he, Nat.sub_self, Nat.zero_mul] at h6
            omega
          have h7 := fun {c o mn} => price_star (X := 5 * u) (P := P) (k := r.length) (fun s' hs' c o h =>
            price_round hp (by omega) (fun s'' hs'' => ih s'' (by omega)) h) (s := r) (c := c) (o := o) (mn := mn) (Nat.le_refl _)
          cases h5 with
          | and_no h5 => trivial
          | and_stop h5 =>
            have := (h7 h5).2
            have := parts_stop (P := P) hl
            simp only [Priced]
            omega
          | and_yes h5 h8 =>
            cases h8
            have := (h7 h5).1 _ rfl
            have := parts_yes (P := P) hl (bill_le h5)
            simp only [Priced]
            omega
      cases h2 with
      | or_no _ h5 => cases h5; trivial
      | or_yes h2 => have := h3 _ _ h2; simp only [Priced] at this ⊢; omega
      | or_stop h2 => have := h3 _ _ h2; simp only [Priced] at this ⊢; omega

theorem price_or (hp : Prices n l f u P) {s c o} (hs : s.length ≤ n)
    (ih : ∀ s', s'.length < s.length → ∀ c o, Bill GP (.ruleName c!"or") s' c o → Priced P (20 * u) s' c o)
    (ih' : ∀ c o, Bill GP (.ruleName c!"and") s c o → Priced P (30 * u) s c o)
    (h : Bill GP (.ruleName c!"or") s c o) : Priced P (20 * u) s c o := by
  have hu := hp.unit
  have hP := hp.price
  cases h with
  | missing hg => cases hg
  | call hg h =>
    cases hg
    cases h with
    | and_no _ => trivial
    | and_stop h => have := ih' _ _ h; simp only [Priced] at this ⊢; omega
    | and_yes h4 h5 =>
      rename_i r a b
      have h6 := ih' _ _ h4
      have hl := bill_le h4
      simp only [Priced] at h6
      have hlt : r.length < s.length := by
        refine Nat.lt_of_le_of_ne hl fun he => ?_
        rw [he, Nat.sub_self, Nat.zero_mul] at h6
        omega
      have h7 : ∀ c o, Bill GP (.and [(.ruleName c!"_"), (.simple (.literal c!"/")), (.ruleName c!"_"), (.ruleName c!"or")]) r c o →
          Priced P 0 r c o ∧ (o = .no → c ≤ 5 * u) := by
        intro c o h
        rcases leaf_step hp (by simp [leafRules]) (by omega) h with ⟨rfl, _⟩ | ⟨rfl, h2⟩ | ⟨r1, c1, _, _, h1, _, l1⟩
        · exact ⟨trivial, fun _ => by omega⟩
        · exact ⟨price_stop hp (by omega), fun h => by cases h⟩
        rcases lit_step h1 with ⟨rfl, _⟩ | ⟨t, c2, rfl, h2, rfl⟩
        · exact ⟨trivial, fun _ => by omega⟩
        have hl : (c!"/" ++ t).length = t.length + 1 := rfl
        rw [hl] at l1
        rcases leaf_step hp (by simp [leafRules]) (by omega) h2 with ⟨rfl, _⟩ | ⟨rfl, h3⟩ | ⟨r3, c3, _, _, h3, _, l3⟩
        · exact ⟨trivial, fun _ => by omega⟩
        · exact ⟨price_stop hp (by omega), fun h => by cases h⟩
        cases h3 with
        | and_no h3 => have := hp.fail _ (by simp [inners]) _ _ (by omega) h3; exact ⟨trivial, fun _ => by omega⟩
        | and_stop h3 =>
          have h5 := ih r3 (by omega) _ _ h3
          refine ⟨?_, fun h => by cases h⟩
          simp only [Priced] at h5 ⊢
          have := Nat.mul_le_mul_right P (show r3.length + 1 ≤ r.length + 1 by omega)
          omega
        | @and_yes _ _ _ q _ _ _ h3 h4 =>
          have h5 := ih r3 (by omega) _ _ h3
          cases h4
          have := bill_le h3
          refine ⟨?_, fun h => by cases h⟩
          simp only [Priced] at h5 ⊢
          have := Nat.mul_le_mul_right P (show r3.length - q.length ≤ r.length - q.length by omega)
          omega
      cases h5 with
      | and_no h5 => trivial
      | and_stop h5 =>
        cases h5 with
        | rep_stop _ h5 =>
          have := (h7 _ _ h5).1
          have := parts_stop (P := P) hl
          simp only [Priced] at *
          omega
        | rep_yes _ _ h5 => cases (rep_none_zero h5).2
      | and_yes h5 h8 =>
        cases h8
        cases h5 with
        | rep_no _ h5 =>
          have := (h7 _ _ h5).2 rfl
          simp only [Priced]
          omega
        | rep_yes _ h5 h8 =>
          have h9 := (h7 _ _ h5).1
          obtain ⟨rfl, h10⟩ := rep_none_zero h8
          cases h10
          have := parts_yes (P := P) hl (bill_le h5)
          simp only [Priced] at *
          omega

theorem price_inner (hp : Prices n l f u P) : ∀ k s, s.length = k → k ≤ n → ∀ c o,
    (Bill GP (.ruleName c!"parenth") s c o → Priced P (60 * u) s c o) ∧
    (Bill GP (.ruleName c!"atom_or_par") s c o → Priced P (50 * u) s c o) ∧
    (Bill GP (.ruleName c!"rep_or_neg") s c o → Priced P (40 * u) s c o) ∧
    (Bill GP (.ruleName c!"and") s c o → Priced P (30 * u) s c o) ∧
    (Bill GP (.ruleName c!"or") s c o → Priced P (20 * u) s c o) ∧
    (Bill GP (.ruleName c!"expr") s c o → Priced P (10 * u) s c o) := by
  intro k
  induction k using Nat.strongRecOn with
  | ind k ih =>
    intro s hk hn
    subst hk
    have hu := hp.unit
    have h1 : ∀ c o, _ := fun c o => price_parenth hp hn (fun s' hs' c o => (ih _ hs' s' rfl (by omega) c o).2.2.2.2.2) (c := c) (o := o)
    have h2 : ∀ c o, _ := fun c o => price_aop hp hn h1 (c := c) (o := o)
    have h3 : ∀ c o, _ := fun c o => price_ron hp hn (fun s' hs' => by
      by_cases he : s'.length < s.length
      · exact fun c o => (ih _ he s' rfl (by omega) c o).2.1
      · exact fun c o => price_aop hp (by omega) (fun c o => price_parenth hp (by omega)
          (fun s'' hs'' c o => (ih _ (by omega) s'' rfl (by omega) c o).2.2.2.2.2))) (c := c) (o := o)
    have h4 : ∀ c o, _ := fun c o => price_and hp hn (fun s' hs' c o => (ih _ hs' s' rfl (by omega) c o).2.2.2.1) h3 (c := c) (o := o)
    have h5 : ∀ c o, _ := fun c o => price_or hp hn (fun s' hs' c o => (ih _ hs' s' rfl (by omega) c o).2.2.2.2.1) h4 (c := c) (o := o)
    refine fun c o => ⟨h1 c o, h2 c o, h3 c o, h4 c o, h5 c o, fun h => ?_⟩
    cases h with
    | missing hg => cases hg
    | call hg h =>
      cases hg
      cases h with
      | missing hg => cases hg
      | call hg h =>
        have h := h5 _ _ (.call hg h)
        cases o <;> simp only [Priced] at h ⊢ <;> omega
end

/-! ### Rules and modules -/

section
variable {n l f u P : Nat}

/-- `c` and `S` more is at most `P` for each character consumed, or for each character if it does not match -/
def Upto (P S : Nat) (s : Str) (c : Nat) : Verdict → Prop
  | .yes r => c + S ≤ (s.length - r.length) * P
  | _ => c + S ≤ (s.length + 1) * P

theorem upto_short (hp : Prices n l f u P) {s : Str} {c S o} (h : c + S ≤ 100 * u) (ho : ∀ r, o ≠ .yes r) : Upto P S s c o := by
  have := pay (P := P) (show 0 + 1 ≤ s.length + 1 by omega)
  have := hp.price
  cases o with
  | yes r => exact absurd rfl (ho r)
  | no => simp only [Upto]; omega
  | stop => simp only [Upto]; omega

/-- a rule begins here, up to the `=` -/
def PastEq (s : Str) : Prop := ∃ a b t c1 c2 c3, Bill GP (.ruleName c!"_") s c1 (.yes a) ∧ Bill GP (.ruleName c!"rule_name") a c2 (.yes b) ∧
  Bill GP (.ruleName c!"_") b c3 (.yes ('=' :: t))

/-- a module begins here, up to the `{` -/
def PastBrace (s : Str) : Prop := ∃ a b t c1 c2 c3, Bill GP (.ruleName c!"_") s c1 (.yes a) ∧ Bill GP (.ruleName c!"mod_name") a c2 (.yes b) ∧
  Bill GP (.ruleName c!"_") b c3 (.yes ('{' :: t))

/-- a module ends here -/
def Closing (s : Str) : Prop := ∃ c t, Bill GP (.ruleName c!"_") s c (.yes ('}' :: t))

theorem peek_rule_brace : peek GP 30 (.is (some '}')) (.ruleName c!"rule_name") = some (false, 7) := by decide +kernel
theorem peek_mod_brace : peek GP 30 (.is (some '}')) (.ruleName c!"mod_name") = some (false, 4) := by decide +kernel
theorem peek_mod_dot : peek GP 30 (.is (some '.')) (.ruleName c!"mod_name") = some (false, 4) := by decide +kernel
theorem peek_ws_dot : peek GP 30 (.is (some '.')) (.ruleName c!"_") = some (true, 17) := by decide +kernel

theorem closing_eq {s} (h : Closing s) : ¬ PastEq s := by
  rintro ⟨a, b, t, c1, c2, c3, h1, h2, _⟩
  obtain ⟨c, q, h0⟩ := h
  cases bill_det h0 h1
  cases (peek_sound peek_rule_brace (by exact rfl) h2).2

theorem closing_brace {s} (h : Closing s) : ¬ PastBrace s := by
  rintro ⟨a, b, t, c1, c2, c3, h1, h2, _⟩
  obtain ⟨c, q, h0⟩ := h
  cases bill_det h0 h1
  cases (peek_sound peek_mod_brace (by exact rfl) h2).2

/-- what begins like a rule does not begin like a module -/
theorem eq_or_brace {s} (h : PastEq s) : ¬ PastBrace s := by
  rintro ⟨a, b, t, c1, c2, c3, h1, h2, h3⟩
  obtain ⟨a', b', t', c1', c2', c3', h1', h2', h3'⟩ := h
  cases bill_det h1 h1'
  cases h2' with
  | call hg h4 =>
    cases hg
    cases h4 with
    | and_yes h4 h5 =>
      cases h4 with
      | rep_yes _ h4 _ =>
        -- it begins with a dot
        obtain ⟨_, ⟨r, rfl, _⟩ | ⟨_, h6⟩⟩ := bill_lit h4
        · cases (peek_sound peek_mod_dot (by exact rfl) h2).2
        · cases h6
      | rep_no _ h4 =>
        cases h5 with
        | and_yes h5 h6 =>
          have h7 : ∃ c, Bill GP (.ruleName c!"symbol") a c (.yes b) := by
            cases h2 with
            | call hg h2 => cases hg; exact ⟨_, h2⟩
          obtain ⟨_, h7⟩ := h7
          cases bill_det h7 h5
          cases h6 with
          | and_yes h6 h8 =>
            cases h8
            cases h6 with
            | rep_no _ h6 => cases bill_det h3 h3'
            | rep_yes _ h6 _ =>
              cases h6 with
              | and_yes h6 _ =>
                obtain ⟨_, ⟨r, rfl, _⟩ | ⟨_, h6⟩⟩ := bill_lit h6
                · have := (peek_sound peek_ws_dot (by exact rfl) h3).2
                  cases this
                · cases h6

theorem rule_cost (hp : Prices n l f u P) {s c o} (hs : s.length ≤ n) (h : Bill GP (.ruleName c!"rule") s c o) :
    (c ≤ 5 * u ∧ ∀ r, o ≠ .yes r) ∨ (PastEq s ∧ Upto P (20 * u) s c o) := by
  have hu := hp.unit
  have hP := hp.price
  cases h with
  | missing hg => cases hg
  | call hg h =>
    cases hg
    rcases leaf_step hp (by simp [leafRules]) hs h with ⟨rfl, _⟩ | ⟨rfl, h2⟩ | ⟨r1, c1, _, b1, h1, _, l1⟩
    · exact .inl ⟨by omega, by simp⟩
    · exact .inl ⟨by omega, by simp⟩
    rcases leaf_step hp (by simp [leafRules]) (by omega) h1 with ⟨rfl, _⟩ | ⟨rfl, h2⟩ | ⟨r2, c2, _, b2, h2, _, l2⟩
    · exact .inl ⟨by omega, by simp⟩
    · exact .inl ⟨by omega, by simp⟩
    rcases leaf_step hp (by simp [leafRules]) (by omega) h2 with ⟨rfl, _⟩ | ⟨rfl, h2⟩ | ⟨r3, c3, _, b3, h3, _, l3⟩
    · exact .inl ⟨by omega, by simp⟩
    · exact .inl ⟨by omega, by simp⟩
    rcases lit_step h3 with ⟨rfl, _⟩ | ⟨t, c4, rfl, h4, rfl⟩
    · exact .inl ⟨by omega, by simp⟩
    refine .inr ⟨⟨_, _, _, _, _, _, b1, b2, b3⟩, ?_⟩
    have hl : (c!"=" ++ t).length = t.length + 1 := rfl
    rw [hl] at l3
    rcases leaf_step hp (by simp [leafRules]) (by omega) h4 with ⟨rfl, _⟩ | ⟨rfl, h5⟩ | ⟨r5, c5, _, b5, h5, _, l5⟩
    · exact upto_short hp (by omega) (by simp)
    · exact upto_short hp (by omega) (by simp)
    have h6 := fun c o => (price_inner hp _ r5 rfl (by omega) c o).2.2.2.2.2
    cases h5 with
    | and_no h5 => have := hp.fail _ (by simp [inners]) _ _ (by omega) h5; exact upto_short hp (by omega) (by simp)
    | and_stop h5 =>
      have := h6 _ _ h5
      simp only [Priced, Upto] at this ⊢
      have := pay (P := P) (show r5.length + 1 + 1 ≤ s.length + 1 by omega)
      omega
    | @and_yes _ _ _ q _ _ _ h5 h7 =>
      have h8 := h6 _ _ h5
      have l6 := bill_le h5
      simp only [Priced] at h8
      have h9 := pay (P := P) (show r5.length - q.length + 1 ≤ s.length + 1 by omega)
      have h10 := pay (P := P) (show r5.length - q.length + 1 ≤ s.length - q.length by omega)
      rcases leaf_step hp (by simp [leafRules]) (by omega) h7 with ⟨rfl, _⟩ | ⟨rfl, h11⟩ | ⟨r7, c7, _, b7, h11, _, l7⟩
      · simp only [Upto]; omega
      · simp only [Upto]; omega
      rcases leaf_step hp (by simp [leafRules]) (by omega) h11 with ⟨rfl, _⟩ | ⟨rfl, h12⟩ | ⟨r8, c8, _, b8, h12, _, l8⟩
      · simp only [Upto]; omega
      · simp only [Upto]; omega
      cases h12
      have := Nat.mul_le_mul_right P (show s.length - q.length ≤ s.length - r8.length by omega)
      simp only [Upto]
      omega

theorem module_cost (hp : Prices n l f u P) {s c o} (hs : s.length ≤ n)
    (ih : ∀ s', s'.length < s.length → ∀ c o, Bill GP (.ruleName c!"grammar") s' c o →
      (∀ r, o = .yes r → Closing r → c ≤ (s'.length - r.length) * P + 15 * u) ∧ c ≤ (s'.length + 1) * P + 15 * u)
    (h : Bill GP (.ruleName c!"module") s c o) :
    (c ≤ 5 * u ∧ ∀ r, o ≠ .yes r) ∨ (PastBrace s ∧ Upto P (20 * u) s c o) := by
  have hu := hp.unit
  have hP := hp.price
  cases h with
  | missing hg => cases hg
  | call hg h =>
    cases hg
    rcases leaf_step hp (by simp [leafRules]) hs h with ⟨rfl, _⟩ | ⟨rfl, h2⟩ | ⟨r1, c1, _, b1, h1, _, l1⟩
    · exact .inl ⟨by omega, by simp⟩
    · exact .inl ⟨by omega, by simp⟩
    rcases leaf_step hp (by simp [leafRules]) (by omega) h1 with ⟨rfl, _⟩ | ⟨rfl, h2⟩ | ⟨r2, c2, _, b2, h2, _, l2⟩
    · exact .inl ⟨by omega, by simp⟩
    · exact .inl ⟨by omega, by simp⟩
    rcases leaf_step hp (by simp [leafRules]) (by omega) h2 with ⟨rfl, _⟩ | ⟨rfl, h2⟩ | ⟨r3, c3, _, b3, h3, _, l3⟩
    · exact .inl ⟨by omega, by simp⟩
    · exact .inl ⟨by omega, by simp⟩
    rcases lit_step h3 with ⟨rfl, _⟩ | ⟨t, c4, rfl, h4, rfl⟩
    · exact .inl ⟨by omega, by simp⟩
    refine .inr ⟨⟨_, _, _, _, _, _, b1, b2, b3⟩, ?_⟩
    have hl : (c!"{" ++ t).length = t.length + 1 := rfl
    rw [hl] at l3
    rcases leaf_step hp (by simp [leafRules]) (by omega) h4 with ⟨rfl, _⟩ | ⟨rfl, h5⟩ | ⟨r5, c5, _, b5, h5, _, l5⟩
    · exact upto_short hp (by omega) (by simp)
    · exact upto_short hp (by omega) (by simp)
    have h6 := ih r5 (by omega)
    have h7 := pay (P := P) (show r5.length + 1 + 1 ≤ s.length + 1 by omega)
    cases h5 with
    | and_no h5 => have := (h6 _ _ h5).2; simp only [Upto]; omega
    | and_stop h5 => have := (h6 _ _ h5).2; simp only [Upto]; omega
    | @and_yes _ _ _ q _ _ _ h5 h8 =>
      have h9 := h6 _ _ h5
      have l6 := bill_le h5
      rcases leaf_step hp (by simp [leafRules]) (by omega) h8 with ⟨rfl, _⟩ | ⟨rfl, h11⟩ | ⟨r7, c7, _, b7, h11, _, l7⟩
      · simp only [Upto]; omega
      · simp only [Upto]; omega
      rcases lit_step h11 with ⟨rfl, _⟩ | ⟨t', c8, rfl, h12, rfl⟩
      · simp only [Upto]; omega
      have h13 := h9.1 q rfl ⟨_, _, b7⟩
      have hl' : (c!"}" ++ t').length = t'.length + 1 := rfl
      rw [hl'] at l7
      have h14 := pay (P := P) (show r5.length - q.length + 1 ≤ s.length + 1 by omega)
      rcases leaf_step hp (by simp [leafRules]) (by omega) h12 with ⟨rfl, _⟩ | ⟨rfl, h15⟩ | ⟨r9, c9, _, b9, h15, _, l9⟩
      · simp only [Upto]; omega
      · simp only [Upto]; omega
      rcases leaf_step hp (by simp [leafRules]) (by omega) h15 with ⟨rfl, _⟩ | ⟨rfl, h16⟩ | ⟨r10, c10, _, b10, h16, _, l10⟩
      · simp only [Upto]; omega
      · simp only [Upto]; omega
      cases h16
      have := pay (P := P) (show r5.length - q.length + 1 ≤ s.length - r10.length by omega)
      simp only [Upto]
      omega

/-- a rule or a module -/
theorem entry_cost (hp : Prices n l f u P) {s c o} (hs : s.length ≤ n)
    (ih : ∀ s', s'.length < s.length → ∀ c o, Bill GP (.ruleName c!"grammar") s' c o →
      (∀ r, o = .yes r → Closing r → c ≤ (s'.length - r.length) * P + 15 * u) ∧ c ≤ (s'.length + 1) * P + 15 * u)
    (h : Bill GP (.or [.ruleName c!"rule", .ruleName c!"module"]) s c o) : Upto P 0 s c o ∧ (Closing s → c ≤ 11 * u) := by
  have hu := hp.unit
  have hP := hp.price
  cases h with
  | or_yes h =>
    rcases rule_cost hp hs h with ⟨_, h1⟩ | ⟨h1, h2⟩
    · exact absurd rfl (h1 _)
    · exact ⟨by simp only [Upto] at h2 ⊢; omega, fun hc => absurd h1 (closing_eq hc)⟩
  | or_stop h =>
    rcases rule_cost hp hs h with ⟨h1, _⟩ | ⟨h1, h2⟩
    · exact ⟨upto_short hp (by omega) (by simp), fun _ => by omega⟩
    · exact ⟨by simp only [Upto] at h2 ⊢; omega, fun hc => absurd h1 (closing_eq hc)⟩
  | or_no h1 h2 =>
    have aux : ∀ a b o, Bill GP (.ruleName c!"rule") s a .no → Bill GP (.ruleName c!"module") s b o →
        Upto P (10 * u) s (a + b) o ∧ (Closing s → a + b ≤ 10 * u) := by
      intro a b o h1 h2
      rcases rule_cost hp hs h1 with ⟨h3, _⟩ | ⟨h3, h4⟩ <;> rcases module_cost hp hs ih h2 with ⟨h5, h6⟩ | ⟨h5, h6⟩
      · exact ⟨upto_short hp (by omega) h6, fun _ => by omega⟩
      · refine ⟨?_, fun hc => absurd h5 (closing_brace hc)⟩
        cases o <;> simp only [Upto] at h6 ⊢ <;> omega
      · refine ⟨?_, fun hc => absurd h3 (closing_eq hc)⟩
        cases o with
        | yes r => exact absurd rfl (h6 r)
        | no => simp only [Upto] at h4 ⊢; omega
        | stop => simp only [Upto] at h4 ⊢; omega
      · exact absurd h5 (eq_or_brace h3)
    cases h2 with
    | or_yes h2 => have := aux _ _ _ h1 h2; exact ⟨by have := this.1; simp only [Upto] at this ⊢; omega, fun hc => by have := this.2 hc; omega⟩
    | or_stop h2 => have := aux _ _ _ h1 h2; exact ⟨by have := this.1; simp only [Upto] at this ⊢; omega, fun hc => by have := this.2 hc; omega⟩
    | or_no h2 h3 =>
      cases h3
      have := aux _ _ _ h1 h2; exact ⟨by have := this.1; simp only [Upto] at this ⊢; omega, fun hc => by have := this.2 hc; omega⟩

theorem entries_cost {B X} (k : Nat) (hB : ∀ s, s.length ≤ k → ∀ c o, Bill GP B s c o → Upto P 0 s c o ∧ (Closing s → c ≤ X)) :
    ∀ {s c o mn}, s.length ≤ k → Bill GP (.rep B mn none) s c o →
      (∀ r, o = .yes r → Closing r → c ≤ (s.length - r.length) * P + X + 1) ∧ c ≤ (s.length + 1) * P + 1 := by
  intro s c o mn hs h
  generalize hx : Expr.rep B mn none = x at h
  induction h generalizing mn with
  | rep_full => cases hx
  | rep_yes hm h1 h2 _ ih2 =>
    cases hx
    rename_i t r a b p _
    have h3 := (hB _ hs _ _ h1).1
    have hl := bill_le h1
    have h4 := ih2 (hl.trans hs) rfl
    simp only [Upto] at h3
    have h5 := parts_stop (P := P) hl
    refine ⟨fun z hz hc => ?_, by omega⟩
    cases hz
    have h6 := h4.1 z rfl hc
    have := parts_yes (P := P) hl (bill_le h2)
    omega
  | rep_no hm h1 =>
    cases hx
    have h2 := hB _ hs _ _ h1
    refine ⟨fun r hr hc => ?_, by have := h2.1; simp only [Upto] at this; omega⟩
    cases hr
    have := h2.2 hc
    omega
  | rep_few hm _ h1 =>
    cases hx
    have h2 := (hB _ hs _ _ h1).1
    simp only [Upto] at h2
    exact ⟨fun r hr => (by cases hr), by omega⟩
  | rep_stop hm h1 =>
    cases hx
    have h2 := (hB _ hs _ _ h1).1
    simp only [Upto] at h2
    exact ⟨fun r hr => (by cases hr), by omega⟩
  | _ => cases hx

theorem grammar_cost (hp : Prices n l f u P) : ∀ k s, s.length = k → k ≤ n → ∀ c o, Bill GP (.ruleName c!"grammar") s c o →
    (∀ r, o = .yes r → Closing r → c ≤ (s.length - r.length) * P + 15 * u) ∧ c ≤ (s.length + 1) * P + 15 * u := by
  intro k
  induction k using Nat.strongRecOn with
  | ind k ih =>
    intro s hk hn c o h
    subst hk
    have hu := hp.unit
    cases h with
    | missing hg => cases hg
    | call hg h =>
      cases hg
      have := entries_cost (P := P) (X := 11 * u) s.length (fun s' hs' c o h => entry_cost hp (by omega)
        (fun s'' hs'' => ih _ (by omega) s'' rfl (by omega)) h) (Nat.le_refl _) h
      exact ⟨fun r hr hc => by have := this.1 r hr hc; omega, by omega⟩

end

/-- the work for a text -/
theorem peg_cost : ∃ K, ∀ s c o, Bill GP (.ruleName c!"main") s c o → c ≤ K * (s.length + 1) ^ 2 := by
  obtain ⟨L, hL⟩ : ∃ L, ∀ x ∈ leafRules, ∀ s c o, Bill GP x s c o → c ≤ L * (s.length + 1) := by
    have : ∀ x ∈ leafRules, Lin GP x := by
      intro x hx
      simp only [leafRules, List.mem_cons, List.not_mem_nil, or_false] at hx
      rcases hx with rfl | rfl | rfl | rfl | rfl | rfl | rfl | rfl
      · exact lin_ws
      · exact (flat_call gp_one (flat_or (flat_simple _) (flat_or flat_eol flat_or_nil))).lin
      · exact lin_weol
      · exact lin_error
      · exact lin_atom
      · exact lin_rule_name
      · exact lin_mod_name
      · exact lin_not (lin_and lin_rule_name (lin_and lin_ws (lin_and
          (flat_or (flat_simple _) (flat_or (flat_simple _) flat_or_nil)).lin flat_and_nil.lin)))
    generalize leafRules = xs at this
    induction xs with
    | nil => exact ⟨0, by simp⟩
    | cons x xs ih =>
      obtain ⟨L, h⟩ := ih fun y hy => this y (List.mem_cons_of_mem _ hy)
      obtain ⟨L', h'⟩ := this x (by simp)
      refine ⟨L + L', fun y hy s c o hb => ?_⟩
      rw [Nat.add_mul]
      rcases List.mem_cons.1 hy with rfl | hy
      · have := h' _ _ _ hb; omega
      · have := h _ hy _ _ _ hb; omega
  obtain ⟨W, hW⟩ := thrift_ws
  obtain ⟨F, hF⟩ : ∃ F, W + 2 * L + 600 = F := ⟨_, rfl⟩
  have hA := hL (.ruleName c!"atom") (by simp [leafRules])
  have hE := hL (.ruleName c!"error") (by simp [leafRules])
  have hV := hL (.ruleName c!"_") (by simp [leafRules])
  have hP := fail_parenth hA hE hV hW (Nat.le_of_eq hF)
  have hI : ∀ x ∈ inners, ∀ s c, Bill GP x s c .no → c ≤ (F + F) * (s.length + 1) := by
    intro x hx s c hb
    have h1 := fail_layers hA hE (show 2 * L ≤ F by omega) (m := s.length) (fun s c _ h => hP _ s c rfl h) s c (Nat.le_refl _)
    have h2 := fun h => hP _ s c rfl h
    have h3 : (F + F) * (s.length + 1) = F * s.length + F * s.length + F + F := by rw [Nat.mul_succ, Nat.add_mul]; omega
    have h4 : 2 * L + 600 ≤ F := by omega
    rw [h3]
    simp only [inners, List.mem_cons, List.not_mem_nil, or_false] at hx
    rcases hx with rfl | rfl | rfl | rfl | rfl | rfl
    · have := h1.2.2.2.2 hb; omega
    · have := h1.2.2.2.1 hb; omega
    · have := h1.2.2.1 hb; omega
    · have := h1.2.1 hb; omega
    · have := h1.1 hb; omega
    · have := h2 hb; omega
  refine ⟨100 * (L + (F + F) + 10) + (15 * (L + (F + F) + 10) + 1), fun s c o h => ?_⟩
  have hp : Prices s.length (L * (s.length + 1)) ((F + F) * (s.length + 1)) ((L + (F + F) + 10) * (s.length + 1))
      (100 * ((L + (F + F) + 10) * (s.length + 1))) := by
    refine ⟨fun x hx t c o ht hb => ?_, fun x hx t c ht hb => ?_, ?_, rfl⟩
    · exact (hL x hx t c o hb).trans (Nat.mul_le_mul_left _ (by omega))
    · exact (hI x hx t c hb).trans (Nat.mul_le_mul_left _ (by omega))
    · have : (L + (F + F) + 10) * (s.length + 1) = L * (s.length + 1) + (F + F) * (s.length + 1) + 10 * (s.length + 1) := by
        rw [Nat.add_mul, Nat.add_mul L]
      omega
  cases h with
  | missing hg => cases hg
  | call hg h =>
    cases hg
    have h1 := (grammar_cost hp _ s rfl (Nat.le_refl _) _ _ h).2
    generalize L + (F + F) + 10 = X at h1 ⊢
    have hN : 1 ≤ s.length + 1 := by omega
    generalize s.length + 1 = N at h1 hN ⊢
    have h2 : N * (100 * (X * N)) = 100 * (X * (N * N)) := by rw [Nat.mul_left_comm, Nat.mul_left_comm N]
    have h3 : X * N ≤ X * (N * N) := Nat.mul_le_mul_left _ (Nat.le_mul_of_pos_left _ hN)
    have h4 : 1 ≤ N * N := Nat.mul_pos hN hN
    rw [Nat.pow_two, Nat.add_mul, Nat.add_mul, Nat.mul_assoc, Nat.mul_assoc]
    omega

end DP
