/-
The calculator of README.md: how much work an expression is, and how much an unclosed parenthesis.
-/
import Verif.Proofs.ReadmeCalc
import Verif.Proofs.Bill
import Verif.Proofs.Does

namespace DP
open Spec Spec.Readme

section
variable {G : Str → Option Expr}

theorem bill_pos {e s c o} (h : Bill G e s c o) : 1 ≤ c := by
  induction h <;> omega

theorem bill_call {n e s c o} (hg : G n = some e) (h : Bill G (.ruleName n) s c o) : ∃ c', c = c' + 1 ∧ Bill G e s c' o := by
  cases h with
  | call hg' h => rw [hg] at hg'; cases hg'; exact ⟨_, rfl, h⟩
  | missing hg' => rw [hg] at hg'; cases hg'

theorem bill_nil {s c o} (h : Bill G (.and []) s c o) : c = 1 := by cases h; rfl

theorem bill_and {e es s r ns c o} (hp : Peg G e s (.ok r ns)) (h : Bill G (.and (e :: es)) s c o) :
    ∃ c1 c2, c = c1 + c2 ∧ Bill G e s c1 (.yes r) ∧ Bill G (.and es) r c2 o := by
  cases h with
  | and_yes h h' => cases bill_as h hp; exact ⟨_, _, rfl, h, h'⟩
  | and_no h => cases bill_as h hp
  | and_stop h => cases bill_as h hp

theorem bill_and_fail {e es s c o} (hp : Peg G e s .fail) (h : Bill G (.and (e :: es)) s c o) :
    ∃ c1, c = c1 + 1 ∧ Bill G e s c1 .no := by
  cases h with
  | and_yes h h' => cases bill_as h hp
  | and_no h => exact ⟨_, rfl, h⟩
  | and_stop h => cases bill_as h hp

theorem bill_or {e es s r ns c o} (hp : Peg G e s (.ok r ns)) (h : Bill G (.or (e :: es)) s c o) :
    ∃ c1, c = c1 + 1 ∧ Bill G e s c1 (.yes r) := by
  cases h with
  | or_no h h' => cases bill_as h hp
  | or_yes h => cases bill_as h hp; exact ⟨_, rfl, h⟩
  | or_stop h => cases bill_as h hp

theorem bill_or_fail {e es s c o} (hp : Peg G e s .fail) (h : Bill G (.or (e :: es)) s c o) :
    ∃ c1 c2, c = c1 + c2 ∧ Bill G e s c1 .no ∧ Bill G (.or es) s c2 o := by
  cases h with
  | or_no h h' => exact ⟨_, _, rfl, h, h'⟩
  | or_yes h => cases bill_as h hp
  | or_stop h => cases bill_as h hp

theorem bill_rep {e mn mx s r ns c o} (hm : mx ≠ some 0) (hp : Peg G e s (.ok r ns)) (h : Bill G (.rep e mn mx) s c o) :
    ∃ c1 c2, c = c1 + c2 ∧ Bill G e s c1 (.yes r) ∧ Bill G (.rep e (mn - 1) (mx.map (· - 1))) r c2 o := by
  cases h with
  | rep_full => exact absurd rfl hm
  | rep_yes _ h h' => cases bill_as h hp; exact ⟨_, _, rfl, h, h'⟩
  | rep_no _ h => cases bill_as h hp
  | rep_few _ _ h => cases bill_as h hp
  | rep_stop _ h => cases bill_as h hp

theorem bill_rep_fail {e mn mx s c o} (hm : mx ≠ some 0) (hp : Peg G e s .fail) (h : Bill G (.rep e mn mx) s c o) :
    ∃ c1, c = c1 + 1 ∧ Bill G e s c1 .no := by
  cases h with
  | rep_full => exact absurd rfl hm
  | rep_yes _ h h' => cases bill_as h hp
  | rep_no _ h => exact ⟨_, rfl, h⟩
  | rep_few _ _ h => exact ⟨_, rfl, h⟩
  | rep_stop _ h => cases bill_as h hp
end

/-! ### Unclosed parentheses -/

/-- a sum that is none starts with a factor that is none, which is tried twice -/
theorem calc_expr_fail {s} (h : Peg GC (.ruleName c!"portion_expr") s .fail) :
    Peg GC (.ruleName c!"add_t") s .fail ∧ Peg GC (.ruleName c!"expr") s .fail := by
  have h1 : Peg GC (.ruleName c!"add_t") s .fail := .call_fail gc_add (.and_fail (.call_fail gc_fact h))
  exact ⟨h1, .call_fail gc_expr (.or_next (.and_fail h1) (.or_next h (.or_nil _)))⟩

theorem calc_item_paren (s : Str) : Peg GC (.ruleName c!"item") ('(' :: s) .fail :=
  .call_fail gc_item (.call_fail gc_num (.and_fail (.rep_few (by simp) (by omega) (.class_fail _ _ _ _ (by
    intro h; exact absurd ((inClass_digit '(').2 h) (by decide))))))

/-- an opening parenthesis before something that is not a factor does not help -/
theorem calc_open_fail {s} (h : Peg GC (.ruleName c!"portion_expr") s .fail) : Peg GC (.ruleName c!"portion_expr") ('(' :: s) .fail :=
  .call_fail gc_portion (.or_next (.and_tail_fail (.lit_ok c!"(" s) (.and_fail (calc_expr_fail h).2))
    (.or_next (calc_item_paren s) (.or_nil _)))

theorem calc_opens_fail {s} (h : Peg GC (.ruleName c!"portion_expr") s .fail) : ∀ k,
    Peg GC (.ruleName c!"portion_expr") (List.replicate k '(' ++ s) .fail
  | 0 => h
  | k + 1 => calc_open_fail (calc_opens_fail h k)

theorem calc_expr_twice {s k} (h : Peg GC (.ruleName c!"portion_expr") s .fail)
    (hk : ∀ c o, Bill GC (.ruleName c!"portion_expr") s c o → k ≤ c) {c o} (hb : Bill GC (.ruleName c!"expr") s c o) : 2 * k ≤ c := by
  obtain ⟨h1, _⟩ := calc_expr_fail h
  obtain ⟨c1, rfl, b1⟩ := bill_call gc_expr hb
  obtain ⟨c2, c3, rfl, b2, b3⟩ := bill_or_fail (.and_fail h1) b1
  obtain ⟨c4, c5, rfl, b4, _⟩ := bill_or_fail h b3
  obtain ⟨c6, rfl, b6⟩ := bill_and_fail h1 b2
  obtain ⟨c7, rfl, b7⟩ := bill_call gc_add b6
  obtain ⟨c8, rfl, b8⟩ := bill_and_fail (.call_fail gc_fact h) b7
  obtain ⟨c9, rfl, b9⟩ := bill_call gc_fact b8
  have := hk _ _ b4
  have := hk _ _ b9
  omega

theorem calc_opens_cost {s} (h : Peg GC (.ruleName c!"portion_expr") s .fail) : ∀ k c o,
    Bill GC (.ruleName c!"portion_expr") (List.replicate k '(' ++ s) c o → 2 ^ (k + 1) ≤ c := by
  intro k
  induction k with
  | zero =>
    intro c o hb
    obtain ⟨c1, rfl, b1⟩ := bill_call gc_portion hb
    have := bill_pos b1
    simp only [Nat.zero_add, Nat.pow_one]
    omega
  | succ k ih =>
    intro c o hb
    have h1 := calc_opens_fail h k
    obtain ⟨c1, rfl, b1⟩ := bill_call gc_portion hb
    obtain ⟨c2, c3, rfl, b2, _⟩ := bill_or_fail (.and_tail_fail (.lit_ok c!"(" (List.replicate k '(' ++ s)) (.and_fail (calc_expr_fail h1).2)) b1
    obtain ⟨c4, c5, rfl, _, b5⟩ := bill_and (.lit_ok c!"(" (List.replicate k '(' ++ s)) b2
    obtain ⟨c6, rfl, b6⟩ := bill_and_fail (calc_expr_fail h1).2 b5
    have := calc_expr_twice h1 ih b6
    rw [Nat.pow_succ]
    omega

/-- a sum after one parenthesis too many -/
theorem calc_unclosed {u t} (h : Addition u t) : Peg GC (.ruleName c!"portion_expr") ('(' :: u) .fail := by
  have h1 := calc_sum h (after_spaces 0)
  rw [show spaces 0 = [] from rfl, List.append_nil] at h1
  exact .call_fail gc_portion (.or_next (.and_tail_fail (.lit_ok c!"(" u) (.and_tail_fail h1 (.and_fail (.lit_fail _ _ (by decide)))))
    (.or_next (calc_item_paren u) (.or_nil _)))

theorem calc_nothing : Peg GC (.ruleName c!"portion_expr") [] .fail :=
  .call_fail gc_portion (.or_next (.and_fail (.lit_fail _ _ (by decide))) (.or_next (.call_fail gc_item (.call_fail gc_num
    (.and_fail (.rep_few (by simp) (by omega) (.class_end _ _))))) (.or_nil _)))

theorem calc_main_slow {s} (h : Peg GC (.ruleName c!"portion_expr") s .fail) (k : Nat) :
    Peg GC (.ruleName c!"main") (List.replicate (k + 1) '(' ++ s) .fail ∧
    ∀ c o, Bill GC (.ruleName c!"main") (List.replicate (k + 1) '(' ++ s) c o → 2 ^ (k + 3) < c := by
  have h1 := calc_opens_fail h (k + 1)
  have h2 := calc_ws 0 (r := List.replicate (k + 1) '(' ++ s) (by rintro q ⟨⟩)
  rw [show spaces 0 = [] from rfl, List.nil_append] at h2
  refine ⟨.call_fail gc_main (.and_tail_fail h2 (.and_fail (calc_expr_fail h1).2)), fun c o hb => ?_⟩
  obtain ⟨c1, rfl, b1⟩ := bill_call gc_main hb
  obtain ⟨c2, c3, rfl, _, b3⟩ := bill_and h2 b1
  obtain ⟨c4, rfl, b4⟩ := bill_and_fail (calc_expr_fail h1).2 b3
  have := calc_expr_twice h1 (calc_opens_cost h (k + 1)) b4
  rw [Nat.pow_succ] at this
  simp only [Nat.pow_succ] at this ⊢
  omega

/-! ### Expressions -/

theorem bill_one_lit {G : Str → Option Expr} {x s c o} (h : Bill G (.simple (.literal x)) s c o) : c = 1 := bill_simple h

theorem calc_ws_cost {c o} : ∀ {r : Str}, Bill GC (.ruleName c!"_") r c o → c = lead ' ' r + 3 := by
  have aux : ∀ (r : Str) {c o}, Bill GC (.rep (.simple (.literal c!" ")) 0 none) r c o → c = lead ' ' r + 2 := by
    intro r
    induction r with
    | nil =>
      intro c o h
      obtain ⟨c1, rfl, b1⟩ := bill_rep_fail (by simp) (.lit_fail _ _ (by decide)) h
      have := bill_one_lit b1
      simp only [lead, List.takeWhile_nil, List.length_nil]
      omega
    | cons d r ih =>
      intro c o h
      by_cases hd : d = ' '
      · subst hd
        obtain ⟨c1, c2, rfl, b1, b2⟩ := bill_rep (by simp) (.lit_ok c!" " r) h
        have := bill_one_lit b1
        have := ih b2
        rw [lead_cons]
        omega
      · obtain ⟨c1, rfl, b1⟩ := bill_rep_fail (by simp) (.lit_fail c!" " (d :: r) (by rintro ⟨t, ht⟩; cases ht; exact hd rfl)) h
        have := bill_one_lit b1
        rw [lead_other hd]
        omega
  intro r h
  obtain ⟨c1, rfl, b1⟩ := bill_call gc_ws h
  rw [aux r b1]

/-- two literals -/
theorem bill_or_lits {G : Str → Option Expr} {x y s c o} (h : Bill G (.or [.simple (.literal x), .simple (.literal y)]) s c o) : c ≤ 3 := by
  have h3 : ∀ {c o}, Bill G (.or [.simple (.literal y)]) s c o → c ≤ 2 := by
    intro c o h
    cases h with
    | or_no h h' => have := bill_one_lit h; cases h'; omega
    | or_yes h => have := bill_one_lit h; omega
    | or_stop h => have := bill_one_lit h; omega
  cases h with
  | or_no h h' => have := bill_one_lit h; have := h3 h'; omega
  | or_yes h => have := bill_one_lit h; omega
  | or_stop h => have := bill_one_lit h; omega

theorem calc_factOp_cost {s c o} (h : Bill GC (.ruleName c!"fact_op") s c o) : c ≤ 4 := by
  obtain ⟨c1, rfl, b1⟩ := bill_call (e := .or [.simple (.literal c!"*"), .simple (.literal c!"/")]) rfl h
  have := bill_or_lits b1
  omega

theorem calc_addOp_cost {s c o} (h : Bill GC (.ruleName c!"add_op") s c o) : c ≤ 4 := by
  obtain ⟨c1, rfl, b1⟩ := bill_call (e := .or [.simple (.literal c!"+"), .simple (.literal c!"-")]) rfl h
  have := bill_or_lits b1
  omega

theorem calc_digits_cost {c o mn} : ∀ {s : Str}, Bill GC (.rep calcDigit mn none) s c o → ∀ {u r}, s = u ++ r →
    (∀ d ∈ u, Digit d) → (∀ d q, r = d :: q → ¬ Digit d) → c ≤ u.length + 2 := by
  intro s h u r hs hu hr
  induction u generalizing s c o mn with
  | nil =>
    simp only [List.nil_append] at hs
    subst hs
    have hf : Peg GC calcDigit s .fail := (calc_digit s).2 fun d q h => by simpa using hr d q h
    obtain ⟨c1, rfl, b1⟩ := bill_rep_fail (by simp) hf h
    have := bill_simple b1
    simp only [List.length_nil]
    omega
  | cons d u ih =>
    subst hs
    have hp := (calc_digit (d :: u ++ r)).1 d (u ++ r) rfl (by simpa using hu d (by simp))
    obtain ⟨c1, c2, rfl, b1, b2⟩ := bill_rep (by simp) hp h
    have := bill_simple b1
    have := ih b2 rfl fun d hd => hu d (by simp [hd])
    simp only [List.length_cons]
    omega

theorem calc_num_cost {s ns r c o} (h : Numeral s ns) (hr : AfterFactor r) (hb : Bill GC (.ruleName c!"num") (s ++ r) c o) :
    c ≤ s.length + 10 := by
  obtain ⟨c1, rfl, b1⟩ := bill_call gc_num hb
  have hd : ∀ c q, r = c :: q → decide (Digit c) = false := fun c q h => by simpa using (hr c q h).1
  cases h with
  | whole hi =>
    obtain ⟨h1, h2⟩ := digits_iff.2 hi
    obtain ⟨c2, c3, rfl, b2, b3⟩ := bill_and (calc_digit.rep 1 h2 hd h1) b1
    have := calc_digits_cost b2 rfl hi.2 fun d q h => (hr d q h).1
    have hf : Peg GC (.and [.simple (.literal c!"."), .rep calcDigit 1 none]) r .fail :=
      .and_fail (.lit_fail _ _ (by rintro ⟨t, rfl⟩; exact (hr _ _ rfl).2 rfl))
    obtain ⟨c4, c5, rfl, b4, b5⟩ := bill_and (opt_none hf) b3
    obtain ⟨c6, rfl, b6⟩ := bill_rep_fail (by simp) hf b4
    obtain ⟨c7, rfl, b7⟩ := bill_and_fail (.lit_fail _ _ (by rintro ⟨t, rfl⟩; exact (hr _ _ rfl).2 rfl)) b6
    have := bill_simple b7
    have := bill_nil b5
    omega
  | @frac i f hi hf =>
    obtain ⟨h1, h2⟩ := digits_iff.2 hi
    obtain ⟨h3, h4⟩ := digits_iff.2 hf
    rw [List.append_assoc] at b1
    have h5 := calc_digit.rep 1 (u := i) (r := c!"." ++ (f ++ r)) h2 (by rintro c q ⟨⟩; decide) h1
    have h6 := calc_digit.rep 1 h4 hd h3
    have h7 : Peg GC (.and [.simple (.literal c!"."), .rep calcDigit 1 none]) (c!"." ++ (f ++ r)) (.ok r _) :=
      .and_ok (.lit_ok c!"." (f ++ r)) (.and_ok h6 (.and_nil _))
    obtain ⟨c2, c3, rfl, b2, b3⟩ := bill_and h5 b1
    have := calc_digits_cost b2 rfl hi.2 (by rintro d q ⟨⟩; decide)
    obtain ⟨c4, c5, rfl, b4, b5⟩ := bill_and (opt_some h7) b3
    obtain ⟨c6, c7, rfl, b6, b7⟩ := bill_rep (by simp) h7 b4
    have := rep_none_zero b7
    obtain ⟨c8, c9, rfl, b8, b9⟩ := bill_and (.lit_ok c!"." (f ++ r)) b6
    have := bill_simple b8
    obtain ⟨c10, c11, rfl, b10, b11⟩ := bill_and h6 b9
    have := calc_digits_cost b10 rfl hf.2 fun d q h => (hr d q h).1
    have := bill_nil b11
    have := bill_nil b5
    simp only [List.length_append, List.length_cons]
    omega

/-- a round that finds no further operation -/
theorem calc_last_cost {op e : Str} {p} (hop : Reads GC (.ruleName op) p (symbol op)) {r : Str}
    (hk : ∀ {s c o}, Bill GC (.ruleName op) s c o → c ≤ 4)
    (h : ∀ n c q, r = spaces n ++ c :: q → p c = false) {c o} (hb : Bill GC (.rep (calcStep op e) 0 none) r c o) : c ≤ lead ' ' r + 9 := by
  obtain ⟨c1, rfl, b1⟩ := bill_rep_fail (by simp) (calc_step_fail (e := e) hop h) hb
  obtain ⟨n, w, rfl, hw⟩ := spaces_split r
  obtain ⟨c2, c3, rfl, b2, b3⟩ := bill_and (calc_ws n hw) b1
  obtain ⟨c4, rfl, b4⟩ := bill_and_fail ((hop w).2 fun c q hq => by subst hq; exact h n c q rfl) b3
  have := calc_ws_cost b2
  have := hk b4
  omega

theorem lead_spaces {c : Char} (hc : c ≠ ' ') (m : Nat) (x : Str) : lead ' ' (spaces m ++ c :: x) = m :=
  lead_replicate (by simpa using hc) m

/-- a round that finds one -/
theorem calc_round_cost {op e : Str} {p} (hop : Reads GC (.ruleName op) p (symbol op))
    (hk : ∀ {s c o}, Bill GC (.ruleName op) s c o → c ≤ 4) {m c n s q ms}
    (hc : p c = true) (hs : c ≠ ' ') (h0 : ∀ x, s ≠ ' ' :: x) (h : Peg GC (.ruleName e) s (.ok q ms)) {k o}
    (hb : Bill GC (.rep (calcStep op e) 0 none) (spaces m ++ c :: spaces n ++ s) k o) :
    ∃ k1 k2, k ≤ m + n + 11 + k1 + k2 ∧ Bill GC (.ruleName e) s k1 (.yes q) ∧ Bill GC (.rep (calcStep op e) 0 none) q k2 o := by
  have h1 := calc_ws m (r := c :: (spaces n ++ s)) (by rintro x ⟨⟩; exact hs rfl)
  have h2 := (hop (c :: (spaces n ++ s))).1 c _ rfl hc
  obtain ⟨c1, c2, rfl, b1, b2⟩ := bill_rep (by simp) (calc_step hop (m := m) (n := n) hc hs h0 h) hb
  rw [List.append_assoc, List.cons_append] at b1
  obtain ⟨c3, c4, rfl, b3, b4⟩ := bill_and h1 b1
  obtain ⟨c5, c6, rfl, b5, b6⟩ := bill_and h2 b4
  obtain ⟨c7, c8, rfl, b7, b8⟩ := bill_and (calc_ws n h0) b6
  obtain ⟨c9, c10, rfl, b9, b10⟩ := bill_and h b8
  have e1 := calc_ws_cost b3
  have e2 := calc_ws_cost b7
  rw [lead_spaces hs] at e1
  have e3 : lead ' ' (spaces n ++ s) = n := lead_replicate (by
    intro hx
    cases s with
    | nil => cases hx
    | cons d s => simp only [List.head?_cons, Option.some.injEq] at hx; subst hx; exact h0 s rfl) n
  rw [e3] at e2
  have := hk b5
  have := bill_nil b10
  exact ⟨c9, c2, by omega, b9, b2⟩

theorem numeral_length {s ns} (h : Numeral s ns) : 1 ≤ s.length := by
  obtain ⟨c, q, rfl, _⟩ := numeral_start h
  simp

mutual
theorem calc_factor_cost : ∀ {s t}, Factor s t → ∀ {r}, AfterFactor r → ∀ {c o},
    Bill GC (.ruleName c!"portion_expr") (s ++ r) c o → c ≤ 24 * s.length
  | _, _, .numeral (s := s) h, r, hr, c, o, hb => by
    obtain ⟨c1, rfl, b1⟩ := bill_call gc_portion hb
    have hf : ¬ c!"(" <+: s ++ r := by
      obtain ⟨c, q, rfl, hd⟩ := numeral_start h
      rintro ⟨t, ht⟩
      cases ht
      exact (digit_ne hd).2.1 rfl
    obtain ⟨c2, c3, rfl, b2, b3⟩ := bill_or_fail (.and_fail (.lit_fail _ _ hf)) b1
    obtain ⟨c4, rfl, b4⟩ := bill_and_fail (.lit_fail _ _ hf) b2
    have := bill_simple b4
    obtain ⟨c5, rfl, b5⟩ := bill_or (.call_ok gc_item (calc_num h hr)) b3
    obtain ⟨c6, rfl, b6⟩ := bill_call gc_item b5
    have := calc_num_cost h hr b6
    have := numeral_length h
    omega
  | _, _, .parens (s := s) h, r, _, c, o, hb => by
    have ha : AfterSum (c!")" ++ r) := by
      refine ⟨⟨?_, ?_⟩, ?_⟩
      · rintro c q ⟨⟩; decide
      · intro n c q h
        rcases spaces_head (n := 0) (c := ')') (x := r) (by decide) h with rfl | rfl <;> decide
      · intro n c q h
        rcases spaces_head (n := 0) (c := ')') (x := r) (by decide) h with rfl | rfl <;> decide
    have h1 := calc_sum h ha
    have hp := Peg.and_ok (.lit_ok c!"(" _) (.and_ok h1 (.and_ok (.lit_ok c!")" r) (.and_nil _)))
    rw [show '(' :: s ++ [')'] ++ r = c!"(" ++ (s ++ (c!")" ++ r)) by simp] at hb
    obtain ⟨c1, rfl, b1⟩ := bill_call gc_portion hb
    obtain ⟨c2, rfl, b2⟩ := bill_or hp b1
    obtain ⟨c3, c4, rfl, b3, b4⟩ := bill_and (.lit_ok c!"(" _) b2
    obtain ⟨c5, c6, rfl, b5, b6⟩ := bill_and h1 b4
    obtain ⟨c7, c8, rfl, b7, b8⟩ := bill_and (.lit_ok c!")" r) b6
    have := bill_simple b3
    have := bill_simple b7
    have := bill_nil b8
    have := calc_sum_cost h ha b5
    rw [show lead ' ' (c!")" ++ r) = 0 from lead_other (by decide) r] at this
    simp only [List.length_append, List.length_cons, List.length_nil]
    omega
theorem calc_factors_cost : ∀ {s ts}, Factors s ts → ∀ {r}, AfterProduct r → ∀ {c o},
    Bill GC (.rep (calcStep c!"fact_op" c!"fact_t") 0 none) (s ++ r) c o → c ≤ 24 * s.length + lead ' ' r + 9
  | _, _, .nil, r, hr, c, o, hb => by
    have := calc_last_cost calc_factOp calc_factOp_cost (fun n c q h => by have := hr.2 n c q h; simpa using this) hb
    simp only [List.nil_append] at this
    omega
  | _, _, .cons (m := m) (c := d) (n := n) (s := s) (r := u) hc h1 h2, r, hr, c, o, hb => by
    have h4 := calc_factor h1 (after_factors h2 hr.1)
    rw [List.append_assoc, List.append_assoc] at hb
    obtain ⟨k1, k2, hk, b1, b2⟩ := calc_round_cost calc_factOp calc_factOp_cost (by simpa using hc) (by rcases hc with rfl | rfl <;> decide)
      (factor_start h1 (u ++ r)) (.call_ok gc_fact h4) hb
    obtain ⟨k3, rfl, b3⟩ := bill_call gc_fact b1
    have := calc_factor_cost h1 (after_factors h2 hr.1) b3
    have := calc_factors_cost h2 hr b2
    simp only [List.length_append, List.length_cons, spaces, List.length_replicate]
    omega
theorem calc_product_cost : ∀ {s t}, Product s t → ∀ {r}, AfterProduct r → ∀ {c o},
    Bill GC (.ruleName c!"add_t") (s ++ r) c o → c ≤ 24 * s.length + lead ' ' r + 12
  | _, _, .mk h1 h2, r, hr, c, o, hb => by
    obtain ⟨nss, h3, rfl⟩ := calc_factors h2 hr
    have h4 := calc_factor h1 (after_factors h2 hr.1)
    have h5 := star_rep h3 (calc_step_fail calc_factOp fun n c q h => by have := hr.2 n c q h; simpa using this) 0 (by simp)
    rw [List.append_assoc] at hb
    obtain ⟨c1, rfl, b1⟩ := bill_call gc_add hb
    obtain ⟨c2, c3, rfl, b2, b3⟩ := bill_and (.call_ok gc_fact h4) b1
    obtain ⟨c4, c5, rfl, b4, b5⟩ := bill_and h5 b3
    obtain ⟨c6, rfl, b6⟩ := bill_call gc_fact b2
    have := calc_factor_cost h1 (after_factors h2 hr.1) b6
    have := calc_factors_cost h2 hr b4
    have := bill_nil b5
    simp only [List.length_append]
    omega
theorem calc_products_cost : ∀ {s ts}, Products s ts → ∀ {r}, AfterSum r → ∀ {c o},
    Bill GC (.rep (calcStep c!"add_op" c!"add_t") 0 none) (s ++ r) c o → c + lead ' ' (s ++ r) ≤ 24 * s.length + 2 * lead ' ' r + 9
  | _, _, .nil, r, hr, c, o, hb => by
    have := calc_last_cost calc_addOp calc_addOp_cost (fun n c q h => by have := hr.2 n c q h; simpa using this) hb
    simp only [List.nil_append] at this ⊢
    omega
  | _, _, .cons (m := m) (c := d) (n := n) (s := s) (r := u) hc h1 h2, r, hr, c, o, hb => by
    have hs : d ≠ ' ' := by rcases hc with rfl | rfl <;> decide
    have h4 := calc_product h1 (after_products h2 hr.1)
    rw [List.append_assoc, List.append_assoc] at hb
    obtain ⟨k1, k2, hk, b1, b2⟩ := calc_round_cost calc_addOp calc_addOp_cost (by simpa using hc) hs
      (product_start h1 (u ++ r)) h4 hb
    have := calc_product_cost h1 (after_products h2 hr.1) b1
    have := calc_products_cost h2 hr b2
    have e1 : lead ' ' (spaces m ++ d :: spaces n ++ s ++ u ++ r) = m := by
      simp only [List.append_assoc, List.cons_append]
      exact lead_spaces hs m _
    rw [e1]
    simp only [List.length_append, List.length_cons, spaces, List.length_replicate]
    omega
theorem calc_sum_cost : ∀ {s t}, Addition s t → ∀ {r}, AfterSum r → ∀ {c o},
    Bill GC (.ruleName c!"expr") (s ++ r) c o → c ≤ 24 * s.length + 2 * lead ' ' r + 24
  | _, _, .mk h1 h2, r, hr, c, o, hb => by
    obtain ⟨nss, h3, rfl⟩ := calc_products h2 hr
    have h4 := calc_product h1 (after_products h2 hr.1)
    have h5 := star_rep h3 (calc_step_fail calc_addOp fun n c q h => by have := hr.2 n c q h; simpa using this) 0 (by simp)
    rw [List.append_assoc] at hb
    obtain ⟨c1, rfl, b1⟩ := bill_call gc_expr hb
    obtain ⟨c2, rfl, b2⟩ := bill_or (.and_ok h4 (.and_ok h5 (.and_nil _))) b1
    obtain ⟨c3, c4, rfl, b3, b4⟩ := bill_and h4 b2
    obtain ⟨c5, c6, rfl, b5, b6⟩ := bill_and h5 b4
    have := calc_product_cost h1 (after_products h2 hr.1) b3
    have := calc_products_cost h2 hr b5
    have := bill_nil b6
    simp only [List.length_append]
    omega
end

theorem calc_main_cost {m u x n} (hS : Addition u x) {c o} (hb : Bill GC (.ruleName c!"main") (spaces m ++ u ++ spaces n) c o) :
    c ≤ 24 * (spaces m ++ u ++ spaces n).length + 32 := by
  have h1 := calc_ws m (sum_start hS (spaces n))
  have h2 := calc_sum hS (after_spaces n)
  have h3 := calc_ws n (r := []) (by simp)
  rw [List.append_nil] at h3
  have e0 : lead ' ' (spaces n) = n := by have := lead_replicate (c := ' ') (s := []) (by simp) n; rwa [List.append_nil] at this
  have e1 : lead ' ' (spaces m ++ (u ++ spaces n)) = m := lead_replicate (by
    intro hx
    cases hu : u ++ spaces n with
    | nil => rw [hu] at hx; cases hx
    | cons d s =>
      rw [hu] at hx
      simp only [List.head?_cons, Option.some.injEq] at hx
      subst hx
      exact sum_start hS (spaces n) s hu) m
  rw [List.append_assoc] at hb
  obtain ⟨c1, rfl, b1⟩ := bill_call gc_main hb
  obtain ⟨c2, c3, rfl, b2, b3⟩ := bill_and h1 b1
  obtain ⟨c4, c5, rfl, b4, b5⟩ := bill_and h2 b3
  obtain ⟨c6, c7, rfl, b6, b7⟩ := bill_and h3 b5
  have k1 := calc_ws_cost b2
  have k2 := calc_ws_cost b6
  have k3 := calc_sum_cost hS (after_spaces n) b4
  have := bill_nil b7
  rw [e1] at k1
  rw [e0] at k2 k3
  simp only [List.length_append, spaces, List.length_replicate]
  omega

end DP
