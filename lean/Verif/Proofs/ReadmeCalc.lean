/-
The calculator of README.md: its rules match arithmetic expressions.
-/
import Verif.Proofs.ReadmeRun

namespace DP
open Spec Spec.Readme

abbrev calcDigit : Expr := .simple (.mtch [] [('0', '9')])

/-- an operation and its right-hand side, with spaces -/
abbrev calcStep (op e : Str) : Expr := .and [.ruleName c!"_", .ruleName op, .ruleName c!"_", .ruleName e]

def calculatorRules : SetOfRules := ⟨[
  (c!"_", .rep (.simple (.literal c!" ")) 0 none),
  (c!"fact_op", .or [.simple (.literal c!"*"), .simple (.literal c!"/")]),
  (c!"add_op", .or [.simple (.literal c!"+"), .simple (.literal c!"-")]),
  (c!"num", .and [.rep calcDigit 1 none, .rep (.and [.simple (.literal c!"."), .rep calcDigit 1 none]) 0 (some 1)]),
  (c!"item", .ruleName c!"num"),
  (c!"portion_expr", .or [.and [.simple (.literal c!"("), .ruleName c!"expr", .simple (.literal c!")")], .ruleName c!"item"]),
  (c!"fact_t", .ruleName c!"portion_expr"),
  (c!"add_t", .and [.ruleName c!"fact_t", .rep (calcStep c!"fact_op" c!"fact_t") 0 none]),
  (c!"expr", .or [.and [.ruleName c!"add_t", .rep (calcStep c!"add_op" c!"add_t") 0 none], .ruleName c!"portion_expr"]),
  (c!"main", .and [.ruleName c!"_", .ruleName c!"expr", .ruleName c!"_"])]⟩

abbrev GC : Str → Option Expr := denotes calculatorRules

theorem gc_ws : GC c!"_" = some (.rep (.simple (.literal c!" ")) 0 none) := rfl
theorem gc_num : GC c!"num" = some (.and [.rep calcDigit 1 none,
  .rep (.and [.simple (.literal c!"."), .rep calcDigit 1 none]) 0 (some 1)]) := rfl
theorem gc_item : GC c!"item" = some (.ruleName c!"num") := rfl
theorem gc_portion : GC c!"portion_expr" = some (.or [.and [.simple (.literal c!"("), .ruleName c!"expr",
  .simple (.literal c!")")], .ruleName c!"item"]) := rfl
theorem gc_fact : GC c!"fact_t" = some (.ruleName c!"portion_expr") := rfl
theorem gc_add : GC c!"add_t" = some (.and [.ruleName c!"fact_t", .rep (calcStep c!"fact_op" c!"fact_t") 0 none]) := rfl
theorem gc_expr : GC c!"expr" = some (.or [.and [.ruleName c!"add_t", .rep (calcStep c!"add_op" c!"add_t") 0 none],
  .ruleName c!"portion_expr"]) := rfl
theorem gc_main : GC c!"main" = some (.and [.ruleName c!"_", .ruleName c!"expr", .ruleName c!"_"]) := rfl

/-! ### Tokens -/

theorem calc_digit : Reads GC calcDigit (fun c => decide (Digit c)) (fun c => .val [c]) :=
  reads_class _ _ _ inClass_digit

theorem calc_factOp : Reads GC (.ruleName c!"fact_op") (fun c => c == '*' || c == '/') (symbol c!"fact_op") := by
  refine ((reads_or (reads_lit '*') (reads_lit '/')).call (n := c!"fact_op") rfl).congr (fun c => rfl) (fun c _ => ?_)
  cases c == '*' <;> rfl

theorem calc_addOp : Reads GC (.ruleName c!"add_op") (fun c => c == '+' || c == '-') (symbol c!"add_op") := by
  refine ((reads_or (reads_lit '+') (reads_lit '-')).call (n := c!"add_op") rfl).congr (fun c => rfl) (fun c _ => ?_)
  cases c == '+' <;> rfl

theorem spaces_eq {u : Str} (h : ∀ c ∈ u, (c == ' ') = true) : u = spaces u.length :=
  List.eq_replicate_of_mem fun c hc => by simpa using h c hc

theorem calc_ws (n : Nat) {r : Str} (hr : ∀ q, r ≠ ' ' :: q) : Peg GC (.ruleName c!"_") (spaces n ++ r) (.ok r [blank n]) := by
  refine .call_ok gc_ws ((reads_lit ' ').rep 0 (u := spaces n) (fun c hc => ?_) (fun c q h => ?_) (by simp))
  · have := List.eq_of_mem_replicate hc
    simp [this]
  · subst h
    have : c ≠ ' ' := by rintro rfl; exact hr q rfl
    simpa using this

theorem calc_ws_inv {s r ns} (h : Peg GC (.ruleName c!"_") s (.ok r ns)) :
    ∃ n, s = spaces n ++ r ∧ (∀ q, r ≠ ' ' :: q) ∧ ns = [blank n] := by
  obtain ⟨cs, rfl, h1⟩ := inv_call gc_ws h
  obtain ⟨u, rfl, hu, hr, _, rfl⟩ := (reads_lit ' ').rep_inv h1
  refine ⟨u.length, by rw [← spaces_eq hu], ?_, by rw [blank, ← spaces_eq hu]; rfl⟩
  rintro q rfl
  have := hr ' ' q rfl
  simp at this

/-- the spaces at the start of a text -/
theorem spaces_split (r : Str) : ∃ n w, r = spaces n ++ w ∧ ∀ q, w ≠ ' ' :: q := by
  induction r with
  | nil => exact ⟨0, [], rfl, by simp⟩
  | cons c r ih =>
    by_cases h : c = ' '
    · obtain ⟨n, w, rfl, hw⟩ := ih
      exact ⟨n + 1, w, by rw [h]; rfl, hw⟩
    · exact ⟨0, c :: r, rfl, fun q hq => by cases hq; exact h rfl⟩

theorem digits_iff {u : Str} : (1 ≤ u.length ∧ ∀ c ∈ u, decide (Digit c) = true) ↔ Digits u := by
  constructor
  · rintro ⟨h, hu⟩
    refine ⟨?_, fun c hc => by simpa using hu c hc⟩
    rintro rfl; simp at h
  · rintro ⟨h, hu⟩
    refine ⟨?_, fun c hc => by simpa using hu c hc⟩
    cases u with
    | nil => exact absurd rfl h
    | cons => simp

/-- what may come after a factor -/
def AfterFactor (r : Str) : Prop := ∀ c q, r = c :: q → ¬ Digit c ∧ c ≠ '.'

/-- what may come after a product -/
def AfterProduct (r : Str) : Prop := AfterFactor r ∧ ∀ n c q, r = spaces n ++ c :: q → c ≠ '*' ∧ c ≠ '/'

/-- what may come after a sum -/
def AfterSum (r : Str) : Prop := AfterProduct r ∧ ∀ n c q, r = spaces n ++ c :: q → c ≠ '+' ∧ c ≠ '-'

theorem calc_num {s ns r} (h : Numeral s ns) (hr : AfterFactor r) :
    Peg GC (.ruleName c!"num") (s ++ r) (.ok r [.rule c!"num" ns]) := by
  have hd : ∀ c q, r = c :: q → decide (Digit c) = false := fun c q h => by simpa using (hr c q h).1
  cases h with
  | whole hi =>
    obtain ⟨h1, h2⟩ := digits_iff.2 hi
    have := Peg.call_ok gc_num (.and_ok (calc_digit.rep 1 h2 hd h1)
      (.and_ok (opt_none (.and_fail (.lit_fail _ _ ?_))) (.and_nil _)))
    · simpa [chars] using this
    · rintro ⟨t, rfl⟩
      exact (hr _ _ rfl).2 rfl
  | @frac i f hi hf =>
    obtain ⟨h1, h2⟩ := digits_iff.2 hi
    obtain ⟨h3, h4⟩ := digits_iff.2 hf
    have h5 := calc_digit.rep 1 (u := i) (r := c!"." ++ (f ++ r)) h2 (by rintro c q ⟨⟩; decide) h1
    have := Peg.call_ok gc_num (.and_ok h5 (.and_ok (opt_some
      (.and_ok (.lit_ok c!"." (f ++ r)) (.and_ok (calc_digit.rep 1 h4 hd h3) (.and_nil _)))) (.and_nil _)))
    simpa [chars] using this

theorem calc_num_inv {s r ns} (h : Peg GC (.ruleName c!"num") s (.ok r ns)) :
    ∃ u cs, s = u ++ r ∧ ns = [.rule c!"num" cs] ∧ Numeral u cs := by
  obtain ⟨cs, rfl, h1⟩ := inv_call gc_num h
  obtain ⟨q, n1, n2, h2, h3, rfl⟩ := inv_and h1
  obtain ⟨q', n3, n4, h4, h5, rfl⟩ := inv_and h3
  obtain ⟨rfl, rfl⟩ := inv_and_nil h5
  obtain ⟨i, rfl, hi, _, hl, rfl⟩ := calc_digit.rep_inv h2
  have hI := digits_iff.1 ⟨hl, hi⟩
  rcases inv_opt h4 with h6 | ⟨rfl, rfl, _⟩
  · obtain ⟨q, n1, n2, h7, h8, rfl⟩ := inv_and h6
    obtain ⟨rfl, rfl⟩ := inv_lit h7
    obtain ⟨q', n3, n4, h9, h10, rfl⟩ := inv_and h8
    obtain ⟨rfl, rfl⟩ := inv_and_nil h10
    obtain ⟨f, rfl, hf, _, hl', rfl⟩ := calc_digit.rep_inv h9
    have := Numeral.frac hI (digits_iff.1 ⟨hl', hf⟩)
    exact ⟨i ++ '.' :: f, _, by simp, rfl, by simpa [chars] using this⟩
  · exact ⟨i, _, rfl, rfl, by simpa [chars] using Numeral.whole hI⟩

/-! ### Everything matched is an expression -/

/-- one more operation -/
theorem calc_step_inv {op e : Str} {p} (hop : Reads GC (.ruleName op) p (symbol op)) {s q ns}
    (h : Peg GC (calcStep op e) s (.ok q ns)) :
    ∃ m c n s' ms, s = spaces m ++ c :: spaces n ++ s' ∧ p c = true ∧ Peg GC (.ruleName e) s' (.ok q ms) ∧
      ns = blank m :: symbol op c :: blank n :: ms := by
  obtain ⟨q1, n1, m1, h1, h2, rfl⟩ := inv_and h
  obtain ⟨q2, n2, m2, h3, h4, rfl⟩ := inv_and h2
  obtain ⟨q3, n3, m3, h5, h6, rfl⟩ := inv_and h4
  obtain ⟨q4, n4, m4, h7, h8, rfl⟩ := inv_and h6
  obtain ⟨rfl, rfl⟩ := inv_and_nil h8
  obtain ⟨m, rfl, _, rfl⟩ := calc_ws_inv h1
  obtain ⟨c, rfl, hc, rfl⟩ := hop.inv h3
  obtain ⟨n, rfl, _, rfl⟩ := calc_ws_inv h5
  exact ⟨m, c, n, q3, n4, by simp, hc, h7, by simp⟩

def FactorsUpTo (k : Nat) : Prop := ∀ {s r ns}, s.length ≤ k → Peg GC (.ruleName c!"portion_expr") s (.ok r ns) →
  ∃ u t, s = u ++ r ∧ ns = [t] ∧ Factor u t

theorem calc_factor_inv {k} (hk : FactorsUpTo k) {s r ns} (hs : s.length ≤ k)
    (h : Peg GC (.ruleName c!"fact_t") s (.ok r ns)) :
    ∃ u t, s = u ++ r ∧ ns = [.rule c!"fact_t" [t]] ∧ Factor u t := by
  obtain ⟨cs, rfl, h1⟩ := inv_call gc_fact h
  obtain ⟨u, t, rfl, rfl, hf⟩ := hk hs h1
  exact ⟨u, t, rfl, rfl, hf⟩

theorem calc_factors_inv {k} (hk : FactorsUpTo k) {s nss r} (h : Star GC (calcStep c!"fact_op" c!"fact_t") s nss r) :
    s.length ≤ k → ∃ u, s = u ++ r ∧ Factors u nss.flatten := by
  induction h with
  | nil s => exact fun _ => ⟨[], rfl, .nil⟩
  | cons h1 _ ih =>
    intro hs
    obtain ⟨m, c, n, s', ms, rfl, hc, h2, rfl⟩ := calc_step_inv calc_factOp h1
    obtain ⟨u, t, rfl, rfl, hf⟩ := calc_factor_inv hk (by simp at hs; omega) h2
    obtain ⟨w, rfl, hw⟩ := ih (by simp at hs; omega)
    refine ⟨spaces m ++ c :: spaces n ++ u ++ w, by simp, ?_⟩
    rw [List.flatten_cons]
    exact .cons (by simpa using hc) hf hw

theorem calc_product_inv {k} (hk : FactorsUpTo k) {s r ns} (hs : s.length ≤ k)
    (h : Peg GC (.ruleName c!"add_t") s (.ok r ns)) : ∃ u t, s = u ++ r ∧ ns = [t] ∧ Product u t := by
  obtain ⟨cs, rfl, h1⟩ := inv_call gc_add h
  obtain ⟨q1, n1, m1, h2, h3, rfl⟩ := inv_and h1
  obtain ⟨q2, n2, m2, h4, h5, rfl⟩ := inv_and h3
  obtain ⟨rfl, rfl⟩ := inv_and_nil h5
  obtain ⟨u, t, rfl, rfl, hf⟩ := calc_factor_inv hk hs h2
  obtain ⟨nss, h6, rfl, _, _⟩ := inv_rep h4
  obtain ⟨w, rfl, hw⟩ := calc_factors_inv hk h6 (by simp at hs; omega)
  exact ⟨u ++ w, _, by simp, rfl, by simpa using Product.mk hf hw⟩

theorem calc_products_inv {k} (hk : FactorsUpTo k) {s nss r} (h : Star GC (calcStep c!"add_op" c!"add_t") s nss r) :
    s.length ≤ k → ∃ u, s = u ++ r ∧ Products u nss.flatten := by
  induction h with
  | nil s => exact fun _ => ⟨[], rfl, .nil⟩
  | cons h1 _ ih =>
    intro hs
    obtain ⟨m, c, n, s', ms, rfl, hc, h2, rfl⟩ := calc_step_inv calc_addOp h1
    obtain ⟨u, t, rfl, rfl, hf⟩ := calc_product_inv hk (by simp at hs; omega) h2
    obtain ⟨w, rfl, hw⟩ := ih (by simp at hs; omega)
    refine ⟨spaces m ++ c :: spaces n ++ u ++ w, by simp, ?_⟩
    rw [List.flatten_cons]
    exact .cons (by simpa using hc) hf hw

theorem calc_sum_inv {k} (hk : FactorsUpTo k) {s r ns} (hs : s.length ≤ k)
    (h : Peg GC (.ruleName c!"expr") s (.ok r ns)) : ∃ u t, s = u ++ r ∧ ns = [t] ∧ Addition u t := by
  obtain ⟨cs, rfl, h1⟩ := inv_call gc_expr h
  rcases inv_or_cons h1 with h1 | ⟨hf, h1⟩
  · obtain ⟨q1, n1, m1, h2, h3, rfl⟩ := inv_and h1
    obtain ⟨q2, n2, m2, h4, h5, rfl⟩ := inv_and h3
    obtain ⟨rfl, rfl⟩ := inv_and_nil h5
    obtain ⟨u, t, rfl, rfl, hf⟩ := calc_product_inv hk hs h2
    obtain ⟨nss, h6, rfl, _, _⟩ := inv_rep h4
    obtain ⟨w, rfl, hw⟩ := calc_products_inv hk h6 (by simp at hs; omega)
    exact ⟨u ++ w, _, by simp, rfl, by simpa using Addition.mk hf hw⟩
  · -- the second alternative is never taken with success
    exfalso
    rcases inv_or_cons h1 with h1 | ⟨_, h1⟩
    · have tail : ∀ {e x}, Peg GC (.and [.rep e 0 none]) x .fail → False := by
        intro e x h
        cases h with
        | and_fail h => exact star_ne_fail _ h
        | and_tail_fail _ h => cases h
      cases hf with
      | and_tail_fail _ h => exact tail h
      | and_fail h =>
        cases h with
        | call_fail hg h =>
          rw [gc_add] at hg; cases hg
          cases h with
          | and_tail_fail _ h => exact tail h
          | and_fail h =>
            cases h with
            | call_fail hg h => rw [gc_fact] at hg; cases hg; cases peg_det h h1
    · exact inv_or_nil h1

theorem calc_factors_upto : ∀ k, FactorsUpTo k := by
  intro k
  induction k with
  | zero =>
    intro s r ns hs h
    cases List.length_eq_zero_iff.mp (Nat.le_zero.mp hs)
    obtain ⟨cs, rfl, h1⟩ := inv_call gc_portion h
    rcases inv_or_cons h1 with h1 | ⟨_, h1⟩
    · obtain ⟨q1, n1, m1, h2, h3, rfl⟩ := inv_and h1
      cases (inv_lit h2).1
    · rcases inv_or_cons h1 with h1 | ⟨_, h1⟩
      · obtain ⟨cs, rfl, h2⟩ := inv_call gc_item h1
        obtain ⟨u, cs, h3, rfl, h4⟩ := calc_num_inv h2
        exact ⟨u, _, h3, rfl, .numeral h4⟩
      · exact (inv_or_nil h1).elim
  | succ k ih =>
    intro s r ns hs h
    obtain ⟨cs, rfl, h1⟩ := inv_call gc_portion h
    rcases inv_or_cons h1 with h1 | ⟨_, h1⟩
    · obtain ⟨q1, n1, m1, h2, h3, rfl⟩ := inv_and h1
      obtain ⟨q2, n2, m2, h4, h5, rfl⟩ := inv_and h3
      obtain ⟨q3, n3, m3, h6, h7, rfl⟩ := inv_and h5
      obtain ⟨rfl, rfl⟩ := inv_and_nil h7
      obtain ⟨rfl, rfl⟩ := inv_lit h2
      obtain ⟨u, t, rfl, rfl, hS⟩ := calc_sum_inv ih (by simp at hs; omega) h4
      obtain ⟨rfl, rfl⟩ := inv_lit h6
      exact ⟨'(' :: u ++ [')'], _, by simp, rfl, .parens hS⟩
    · rcases inv_or_cons h1 with h1 | ⟨_, h1⟩
      · obtain ⟨cs, rfl, h2⟩ := inv_call gc_item h1
        obtain ⟨u, cs, h3, rfl, h4⟩ := calc_num_inv h2
        exact ⟨u, _, h3, rfl, .numeral h4⟩
      · exact (inv_or_nil h1).elim

/-! ### Every expression is matched -/

theorem digit_ne {c : Char} (h : Digit c) : c ≠ ' ' ∧ c ≠ '(' ∧ c ≠ ')' := by
  refine ⟨?_, ?_, ?_⟩ <;> (rintro rfl; revert h; decide)

theorem numeral_start {s ns} (h : Numeral s ns) : ∃ c q, s = c :: q ∧ Digit c := by
  have aux : ∀ {i : Str}, Digits i → ∃ c q, i = c :: q ∧ Digit c := by
    intro i ⟨h1, h2⟩
    cases i with
    | nil => exact absurd rfl h1
    | cons c q => exact ⟨c, q, rfl, h2 c (by simp)⟩
  cases h with
  | whole h => exact aux h
  | frac h _ => obtain ⟨c, q, rfl, hd⟩ := aux h; exact ⟨c, _, rfl, hd⟩

theorem factor_start {s t} (h : Factor s t) (r : Str) : ∀ q, s ++ r ≠ ' ' :: q := by
  intro q hq
  cases h with
  | numeral h =>
    obtain ⟨c, q, rfl, hd⟩ := numeral_start h
    cases hq
    exact (digit_ne hd).1 rfl
  | parens _ => cases hq

theorem product_start {s t} (h : Product s t) (r : Str) : ∀ q, s ++ r ≠ ' ' :: q := by
  cases h with
  | mk h _ => rw [List.append_assoc]; exact factor_start h _

theorem sum_start {s t} (h : Addition s t) (r : Str) : ∀ q, s ++ r ≠ ' ' :: q := by
  cases h with
  | mk h _ => rw [List.append_assoc]; exact product_start h _

/-- the first character after some spaces -/
theorem spaces_head {c c' : Char} {x x' : Str} (hc : c ≠ ' ') : ∀ {n m : Nat},
    spaces n ++ c :: x = spaces m ++ c' :: x' → c' = ' ' ∨ c' = c
  | 0, 0, h => by cases h; exact .inr rfl
  | 0, _ + 1, h => by cases h; exact absurd rfl hc
  | _ + 1, 0, h => by cases h; exact .inl rfl
  | n + 1, m + 1, h => by
    have : spaces n ++ c :: x = spaces m ++ c' :: x' := by
      have h' : ' ' :: (spaces n ++ c :: x) = ' ' :: (spaces m ++ c' :: x') := h
      exact (List.cons.inj h').2
    exact spaces_head hc this

theorem afterFactor_op {m : Nat} {c : Char} {x : Str} (hc : ¬ Digit c ∧ c ≠ '.') : AfterFactor (spaces m ++ c :: x) := by
  intro d q h
  cases m with
  | zero => cases h; exact hc
  | succ m => cases h; decide

theorem after_factors {u ts r} (h : Factors u ts) (hr : AfterFactor r) : AfterFactor (u ++ r) := by
  cases h with
  | nil => exact hr
  | cons hc _ _ =>
    simp only [List.append_assoc, List.cons_append]
    refine afterFactor_op ?_
    rcases hc with rfl | rfl <;> decide

theorem after_products {u ts r} (h : Products u ts) (hr : AfterProduct r) : AfterProduct (u ++ r) := by
  cases h with
  | nil => exact hr
  | cons hc _ _ =>
    simp only [List.append_assoc, List.cons_append]
    constructor
    · refine afterFactor_op ?_
      rcases hc with rfl | rfl <;> decide
    · intro n d q h
      rcases spaces_head (by rcases hc with rfl | rfl <;> decide) h with rfl | rfl
      · decide
      · rcases hc with rfl | rfl <;> decide

/-- there is no further operation -/
theorem calc_step_fail {op e : Str} {p} (hop : Reads GC (.ruleName op) p (symbol op)) {r : Str}
    (h : ∀ n c q, r = spaces n ++ c :: q → p c = false) : Peg GC (calcStep op e) r .fail := by
  obtain ⟨n, w, rfl, hw⟩ := spaces_split r
  exact .and_tail_fail (calc_ws n hw) (.and_fail ((hop w).2 fun c q hq => by subst hq; exact h n c q rfl))

theorem calc_step {op e : Str} {p} (hop : Reads GC (.ruleName op) p (symbol op)) {m c n s q ms}
    (hc : p c = true) (hs : c ≠ ' ') (h0 : ∀ x, s ≠ ' ' :: x) (h : Peg GC (.ruleName e) s (.ok q ms)) :
    Peg GC (calcStep op e) (spaces m ++ c :: spaces n ++ s) (.ok q (blank m :: symbol op c :: blank n :: ms)) := by
  have h1 := calc_ws m (r := c :: (spaces n ++ s)) (by rintro x ⟨⟩; exact hs rfl)
  have h2 := (hop (c :: (spaces n ++ s))).1 c _ rfl hc
  have := Peg.and_ok h1 (.and_ok h2 (.and_ok (calc_ws n h0) (.and_ok h (.and_nil _))))
  simpa using this

mutual
theorem calc_factor : ∀ {s t}, Factor s t → ∀ {r}, AfterFactor r →
    Peg GC (.ruleName c!"portion_expr") (s ++ r) (.ok r [t])
  | _, _, .numeral h, r, hr => by
    refine .call_ok gc_portion (.or_next (.and_fail (.lit_fail _ _ ?_)) (.or_ok (.call_ok gc_item (calc_num h hr))))
    obtain ⟨c, q, rfl, hd⟩ := numeral_start h
    rintro ⟨t, ht⟩
    cases ht
    exact (digit_ne hd).2.1 rfl
  | _, _, .parens (s := s) h, r, _ => by
    have h1 := calc_sum h (r := c!")" ++ r) (by
      refine ⟨⟨?_, ?_⟩, ?_⟩
      · rintro c q ⟨⟩; decide
      · intro n c q h
        rcases spaces_head (n := 0) (c := ')') (x := r) (by decide) h with rfl | rfl <;> decide
      · intro n c q h
        rcases spaces_head (n := 0) (c := ')') (x := r) (by decide) h with rfl | rfl <;> decide)
    have := Peg.call_ok gc_portion (.or_ok (.and_ok (.lit_ok c!"(" _) (.and_ok h1 (.and_ok (.lit_ok c!")" r) (.and_nil _)))))
    simpa using this
theorem calc_factors : ∀ {s ts}, Factors s ts → ∀ {r}, AfterProduct r →
    ∃ nss, Star GC (calcStep c!"fact_op" c!"fact_t") (s ++ r) nss r ∧ nss.flatten = ts
  | _, _, .nil, _, _ => ⟨[], .nil _, rfl⟩
  | _, _, .cons (m := m) (c := c) (n := n) (s := s) (r := u) hc h1 h2, r, hr => by
    obtain ⟨nss, h3, rfl⟩ := calc_factors h2 hr
    have h4 := calc_factor h1 (after_factors h2 hr.1)
    have h5 := calc_step calc_factOp (m := m) (c := c) (n := n) (by simpa using hc) (by rcases hc with rfl | rfl <;> decide)
      (factor_start h1 (u ++ r)) (.call_ok gc_fact h4)
    have := Star.cons h5 h3
    exact ⟨_, by simpa using this, by simp⟩
theorem calc_product : ∀ {s t}, Product s t → ∀ {r}, AfterProduct r → Peg GC (.ruleName c!"add_t") (s ++ r) (.ok r [t])
  | _, _, .mk h1 h2, r, hr => by
    obtain ⟨nss, h3, rfl⟩ := calc_factors h2 hr
    have h4 := calc_factor h1 (after_factors h2 hr.1)
    have h5 := star_rep h3 (calc_step_fail calc_factOp fun n c q h => by have := hr.2 n c q h; simpa using this) 0 (by simp)
    have := Peg.call_ok gc_add (.and_ok (.call_ok gc_fact h4) (.and_ok h5 (.and_nil _)))
    simpa using this
theorem calc_products : ∀ {s ts}, Products s ts → ∀ {r}, AfterSum r →
    ∃ nss, Star GC (calcStep c!"add_op" c!"add_t") (s ++ r) nss r ∧ nss.flatten = ts
  | _, _, .nil, _, _ => ⟨[], .nil _, rfl⟩
  | _, _, .cons (m := m) (c := c) (n := n) (s := s) (r := u) hc h1 h2, r, hr => by
    obtain ⟨nss, h3, rfl⟩ := calc_products h2 hr
    have h4 := calc_product h1 (after_products h2 hr.1)
    have h5 := calc_step calc_addOp (m := m) (c := c) (n := n) (by simpa using hc) (by rcases hc with rfl | rfl <;> decide)
      (product_start h1 (u ++ r)) h4
    have := Star.cons h5 h3
    exact ⟨_, by simpa using this, by simp⟩
theorem calc_sum : ∀ {s t}, Addition s t → ∀ {r}, AfterSum r → Peg GC (.ruleName c!"expr") (s ++ r) (.ok r [t])
  | _, _, .mk h1 h2, r, hr => by
    obtain ⟨nss, h3, rfl⟩ := calc_products h2 hr
    have h4 := calc_product h1 (after_products h2 hr.1)
    have h5 := star_rep h3 (calc_step_fail calc_addOp fun n c q h => by have := hr.2 n c q h; simpa using this) 0 (by simp)
    have := Peg.call_ok gc_expr (.or_ok (.and_ok h4 (.and_ok h5 (.and_nil _))))
    simpa using this
end

theorem after_spaces (n : Nat) : AfterSum (spaces n) := by
  have aux : ∀ {n m : Nat} {c : Char} {q : Str}, spaces n = spaces m ++ c :: q → c = ' ' := by
    intro n m c q h
    have : c ∈ spaces n := by rw [h]; simp
    exact List.eq_of_mem_replicate this
  refine ⟨⟨fun c q h => ?_, fun m c q h => ?_⟩, fun m c q h => ?_⟩
  · rw [aux (m := 0) h]; decide
  · rw [aux h]; decide
  · rw [aux h]; decide

theorem calc_main (s : Str) (t : Node) : Peg GC (.ruleName c!"main") s (.ok [] [t]) ↔
    ∃ m u x n, s = spaces m ++ u ++ spaces n ∧ Addition u x ∧ t = .rule c!"main" [blank m, x, blank n] := by
  constructor
  · intro h
    obtain ⟨cs, h0, h1⟩ := inv_call gc_main h
    cases h0
    obtain ⟨q1, n1, m1, h2, h3, rfl⟩ := inv_and h1
    obtain ⟨q2, n2, m2, h4, h5, rfl⟩ := inv_and h3
    obtain ⟨q3, n3, m3, h6, h7, rfl⟩ := inv_and h5
    obtain ⟨rfl, rfl⟩ := inv_and_nil h7
    obtain ⟨m, rfl, _, rfl⟩ := calc_ws_inv h2
    obtain ⟨u, x, rfl, rfl, hS⟩ := calc_sum_inv (calc_factors_upto _) (Nat.le_refl _) h4
    obtain ⟨n, rfl, _, rfl⟩ := calc_ws_inv h6
    exact ⟨m, u, x, n, by simp, hS, rfl⟩
  · rintro ⟨m, u, x, n, rfl, hS, rfl⟩
    have h1 := calc_ws m (sum_start hS (spaces n))
    have h2 := calc_sum hS (after_spaces n)
    have h3 := calc_ws n (r := []) (by simp)
    rw [List.append_nil] at h3
    have := Peg.call_ok gc_main (.and_ok h1 (.and_ok h2 (.and_ok h3 (.and_nil _))))
    simpa using this

end DP
