/-
The calculator of README.md without the second alternative of `expr`: same trees, linear work on every text.
-/
import Verif.Proofs.CalcCost
import Verif.Proofs.WfCheck
import Verif.Props.Termination

namespace DP
open Spec Spec.Readme

/-- the rules of the calculator with `expr = add_t (_ add_op _ add_t)*` -/
def shortRules : SetOfRules := ⟨[
  (c!"_", .rep (.simple (.literal c!" ")) 0 none),
  (c!"fact_op", .or [.simple (.literal c!"*"), .simple (.literal c!"/")]),
  (c!"add_op", .or [.simple (.literal c!"+"), .simple (.literal c!"-")]),
  (c!"num", .and [.rep calcDigit 1 none, .rep (.and [.simple (.literal c!"."), .rep calcDigit 1 none]) 0 (some 1)]),
  (c!"item", .ruleName c!"num"),
  (c!"portion_expr", .or [.and [.simple (.literal c!"("), .ruleName c!"expr", .simple (.literal c!")")], .ruleName c!"item"]),
  (c!"fact_t", .ruleName c!"portion_expr"),
  (c!"add_t", .and [.ruleName c!"fact_t", .rep (calcStep c!"fact_op" c!"fact_t") 0 none]),
  (c!"expr", .and [.ruleName c!"add_t", .rep (calcStep c!"add_op" c!"add_t") 0 none]),
  (c!"main", .and [.ruleName c!"_", .ruleName c!"expr", .ruleName c!"_"])]⟩

abbrev GT : Str → Option Expr := denotes shortRules

theorem gt_ws : GT c!"_" = some (.rep (.simple (.literal c!" ")) 0 none) := rfl
theorem gt_num : GT c!"num" = some (.and [.rep calcDigit 1 none,
  .rep (.and [.simple (.literal c!"."), .rep calcDigit 1 none]) 0 (some 1)]) := rfl
theorem gt_item : GT c!"item" = some (.ruleName c!"num") := rfl
theorem gt_portion : GT c!"portion_expr" = some (.or [.and [.simple (.literal c!"("), .ruleName c!"expr",
  .simple (.literal c!")")], .ruleName c!"item"]) := rfl
theorem gt_fact : GT c!"fact_t" = some (.ruleName c!"portion_expr") := rfl
theorem gt_add : GT c!"add_t" = some (.and [.ruleName c!"fact_t", .rep (calcStep c!"fact_op" c!"fact_t") 0 none]) := rfl
theorem gt_expr : GT c!"expr" = some (.and [.ruleName c!"add_t", .rep (calcStep c!"add_op" c!"add_t") 0 none]) := rfl
theorem gt_main : GT c!"main" = some (.and [.ruleName c!"_", .ruleName c!"expr", .ruleName c!"_"]) := rfl

/-! ### The same trees -/

theorem star_no_fail {G : Str → Option Expr} {e : Expr} {s} : ¬ Peg G (.rep e 0 none) s .fail := by
  have aux : ∀ {x s o}, Peg G x s o → ∀ {e}, x = .rep e 0 none → o ≠ .fail := by
    intro x s o h
    induction h with
    | rep_more_fail _ _ _ _ ih => rintro e hx ho; cases hx; exact ih rfl rfl
    | rep_few _ hn _ _ => rintro e hx ho; cases hx; omega
    | _ => intro e hx ho; first | exact Outcome.noConfusion ho | exact Expr.noConfusion hx
  exact fun h => aux h rfl rfl

theorem last_star_no_fail {G : Str → Option Expr} {e : Expr} {s} : ¬ Peg G (.and [.rep e 0 none]) s .fail := by
  intro h
  cases h with
  | and_fail h => exact star_no_fail h
  | and_tail_fail _ h => cases h

/-- when the first alternative of `expr` fails, so does the second -/
theorem calc_useless {s} (h : Peg GC (.and [.ruleName c!"add_t", .rep (calcStep c!"add_op" c!"add_t") 0 none]) s .fail) :
    Peg GC (.ruleName c!"portion_expr") s .fail := by
  cases h with
  | and_tail_fail _ h => exact absurd h last_star_no_fail
  | and_fail h =>
    cases h with
    | call_fail hg h =>
      cases hg
      cases h with
      | and_tail_fail _ h => exact absurd h last_star_no_fail
      | and_fail h =>
        cases h with
        | call_fail hg h => cases hg; exact h

theorem gc_or_gt (n : Str) : GC n = GT n ∨ n = c!"expr" := by
  by_cases h : n = c!"expr"
  · exact .inr h
  · left
    have : (n == c!"expr") = false := by simpa using h
    simp only [GC, GT, denotes, grammar, calculatorRules, shortRules, List.lookup, this]

theorem short_same {e s o} (h : Peg GT e s o) : Peg GC e s o := by
  induction h with
  | lit_ok l r => exact .lit_ok l r
  | lit_fail l s h => exact .lit_fail l s h
  | class_ok cs rs c r h => exact .class_ok cs rs c r h
  | class_fail cs rs c r h => exact .class_fail cs rs c r h
  | class_end cs rs => exact .class_end cs rs
  | dot_ok c r => exact .dot_ok c r
  | dot_end => exact .dot_end
  | eof_ok => exact .eof_ok
  | eof_fail c r => exact .eof_fail c r
  | error m s => exact .error m s
  | and_nil s => exact .and_nil s
  | and_ok _ _ ih ih' => exact .and_ok ih ih'
  | and_fail _ ih => exact .and_fail ih
  | and_crit _ ih => exact .and_crit ih
  | and_tail_fail _ _ ih ih' => exact .and_tail_fail ih ih'
  | and_tail_crit _ _ ih ih' => exact .and_tail_crit ih ih'
  | or_nil s => exact .or_nil s
  | or_ok _ ih => exact .or_ok ih
  | or_crit _ ih => exact .or_crit ih
  | or_next _ _ ih ih' => exact .or_next ih ih'
  | not_ok _ ih => exact .not_ok ih
  | not_fail _ ih => exact .not_fail ih
  | not_crit _ ih => exact .not_crit ih
  | rep_full e mn s => exact .rep_full e mn s
  | rep_more hm _ _ ih ih' => exact .rep_more hm ih ih'
  | rep_stop hm _ ih => exact .rep_stop hm ih
  | rep_few hm hn _ ih => exact .rep_few hm hn ih
  | rep_crit hm _ ih => exact .rep_crit hm ih
  | rep_more_fail hm _ _ ih ih' => exact .rep_more_fail hm ih ih'
  | rep_more_crit hm _ _ ih ih' => exact .rep_more_crit hm ih ih'
  | @call_ok n _ _ _ _ hg _ ih =>
    rcases gc_or_gt n with h | rfl
    · exact .call_ok (h.trans hg) ih
    · cases gt_expr.symm.trans hg; exact .call_ok gc_expr (.or_ok ih)
  | @call_fail n _ _ hg _ ih =>
    rcases gc_or_gt n with h | rfl
    · exact .call_fail (h.trans hg) ih
    · cases gt_expr.symm.trans hg; exact .call_fail gc_expr (.or_next ih (.or_next (calc_useless ih) (.or_nil _)))
  | @call_crit n _ _ _ _ hg _ ih =>
    rcases gc_or_gt n with h | rfl
    · exact .call_crit (h.trans hg) ih
    · cases gt_expr.symm.trans hg; exact .call_crit gc_expr (.or_crit ih)
  | @call_missing n _ hg =>
    rcases gc_or_gt n with h | rfl
    · exact .call_missing (h.trans hg)
    · cases gt_expr.symm.trans hg

theorem short_wf : WellFormed GT :=
  wf_of_check (nul := [c!"_"]) (ranks := [c!"_", c!"fact_op", c!"add_op", c!"num", c!"item", c!"portion_expr", c!"fact_t",
    c!"add_t", c!"expr", c!"main"]) (by decide +kernel)

theorem short_main {s o} : Peg GT (.ruleName c!"main") s o ↔ Peg GC (.ruleName c!"main") s o := by
  refine ⟨short_same, fun h => ?_⟩
  obtain ⟨o', h'⟩ := peg_total_of_wf short_wf s (.ruleName c!"main") (by intro b mn hs; cases hs)
  rwa [peg_det h (short_same h')]

/-! ### The work -/

section
variable {G : Str → Option Expr}

theorem reads_bill {e p node s c o} (h : Reads G e p node) (hb : Bill G e s c o) :
    (∃ d q, s = d :: q ∧ p d = true ∧ o = .yes q) ∨ (o = .no ∧ ∀ d q, s = d :: q → p d = false) := by
  cases s with
  | nil => exact .inr ⟨bill_as hb ((h []).2 (by simp)), by simp⟩
  | cons d q =>
    cases hp : p d with
    | true => exact .inl ⟨d, q, rfl, hp, bill_as hb ((h _).1 d q rfl hp)⟩
    | false =>
      have : ∀ d' q', d :: q = d' :: q' → p d' = false := by rintro d' q' ⟨⟩; exact hp
      exact .inr ⟨bill_as hb ((h _).2 this), this⟩

theorem bill_rep_cases {e mn s c o} (h : Bill G (.rep e mn none) s c o) :
    (∃ r c1 c2, c = c1 + c2 ∧ Bill G e s c1 (.yes r) ∧ Bill G (.rep e (mn - 1) none) r c2 o) ∨
    (∃ c1, c = c1 + 1 ∧ Bill G e s c1 .no ∧ (mn = 0 ∧ o = .yes s ∨ 0 < mn ∧ o = .no)) ∨
    (∃ c1, c = c1 + 1 ∧ Bill G e s c1 .stop ∧ o = .stop) := by
  cases h with
  | rep_yes _ h1 h2 => exact .inl ⟨_, _, _, rfl, h1, h2⟩
  | rep_no _ h1 => exact .inr (.inl ⟨_, rfl, h1, .inl ⟨rfl, rfl⟩⟩)
  | rep_few _ hn h1 => exact .inr (.inl ⟨_, rfl, h1, .inr ⟨hn, rfl⟩⟩)
  | rep_stop _ h1 => exact .inr (.inr ⟨_, rfl, h1, rfl⟩)

theorem bill_and_cases {e es s c o} (h : Bill G (.and (e :: es)) s c o) :
    (∃ r c1 c2, c = c1 + c2 ∧ Bill G e s c1 (.yes r) ∧ Bill G (.and es) r c2 o) ∨
    (∃ c1, c = c1 + 1 ∧ Bill G e s c1 o ∧ o = .no) ∨ (∃ c1, c = c1 + 1 ∧ Bill G e s c1 o ∧ o = .stop) := by
  cases h with
  | and_yes h1 h2 => exact .inl ⟨_, _, _, rfl, h1, h2⟩
  | and_no h1 => exact .inr (.inl ⟨_, rfl, h1, rfl⟩)
  | and_stop h1 => exact .inr (.inr ⟨_, rfl, h1, rfl⟩)

theorem bill_one {e s c o} (h : Bill G (.and [e]) s c o) : ∃ c1, c = c1 + 1 ∧ Bill G e s c1 o := by
  rcases bill_and_cases h with ⟨r, c1, c2, rfl, h1, h2⟩ | ⟨c1, rfl, h1, _⟩ | ⟨c1, rfl, h1, _⟩
  · cases h2; exact ⟨_, rfl, h1⟩
  · exact ⟨_, rfl, h1⟩
  · exact ⟨_, rfl, h1⟩

theorem bill_or_one {e s c o} (h : Bill G (.or [e]) s c o) : ∃ c1, c = c1 + 1 ∧ Bill G e s c1 o := by
  cases h with
  | or_no h1 h2 => cases h2; exact ⟨_, rfl, h1⟩
  | or_yes h1 => exact ⟨_, rfl, h1⟩
  | or_stop h1 => exact ⟨_, rfl, h1⟩

theorem digits0_bill {p node e} (h : Reads G e p node) (hs : ∀ {s c o}, Bill G e s c o → c = 1) : ∀ {s : Str} {c o},
    Bill G (.rep e 0 none) s c o → ∃ r, o = .yes r ∧ r.length ≤ s.length ∧ c + r.length = s.length + 2 := by
  intro s
  induction s with
  | nil =>
    intro c o hb
    rcases bill_rep_cases hb with ⟨r, c1, c2, rfl, h1, h2⟩ | ⟨c1, rfl, h1, h2⟩ | ⟨c1, rfl, h1, rfl⟩
    · rcases reads_bill h h1 with ⟨d, q, hq, _⟩ | ⟨hq, _⟩ <;> cases hq
    · rcases h2 with ⟨_, rfl⟩ | ⟨h2, _⟩
      · exact ⟨_, rfl, Nat.le_refl _, by have := hs h1; simp; omega⟩
      · omega
    · rcases reads_bill h h1 with ⟨d, q, hq, _⟩ | ⟨hq, _⟩ <;> cases hq
  | cons a s ih =>
    intro c o hb
    rcases bill_rep_cases hb with ⟨r, c1, c2, rfl, h1, h2⟩ | ⟨c1, rfl, h1, h2⟩ | ⟨c1, rfl, h1, rfl⟩
    · have hc := hs h1
      rcases reads_bill h h1 with ⟨d, q, hq, _, ho⟩ | ⟨hq, _⟩
      · cases hq; cases ho
        obtain ⟨r, rfl, h3, h4⟩ := ih h2
        exact ⟨r, rfl, by simp; omega, by simp; omega⟩
      · cases hq
    · rcases h2 with ⟨_, rfl⟩ | ⟨h2, _⟩
      · exact ⟨_, rfl, Nat.le_refl _, by have := hs h1; simp; omega⟩
      · omega
    · rcases reads_bill h h1 with ⟨d, q, _, _, ho⟩ | ⟨hq, _⟩
      · cases ho
      · cases hq

theorem digits1_bill {p node e} (h : Reads G e p node) (hs : ∀ {s c o}, Bill G e s c o → c = 1) {s : Str} {c o}
    (hb : Bill G (.rep e 1 none) s c o) :
    (∃ r, o = .yes r ∧ r.length < s.length ∧ c + r.length = s.length + 2) ∨ (o = .no ∧ c = 2) := by
  rcases bill_rep_cases hb with ⟨r, c1, c2, rfl, h1, h2⟩ | ⟨c1, rfl, h1, h2⟩ | ⟨c1, rfl, h1, rfl⟩
  · have hc := hs h1
    rcases reads_bill h h1 with ⟨d, q, rfl, _, ho⟩ | ⟨hq, _⟩
    · cases ho
      obtain ⟨r, rfl, h3, h4⟩ := digits0_bill h hs h2
      exact .inl ⟨r, rfl, by simp; omega, by simp; omega⟩
    · cases hq
  · rcases h2 with ⟨h2, _⟩ | ⟨_, rfl⟩
    · omega
    · exact .inr ⟨rfl, by have := hs h1; omega⟩
  · rcases reads_bill h h1 with ⟨d, q, _, _, ho⟩ | ⟨hq, _⟩
    · cases ho
    · cases hq

end

theorem short_digit : Reads GT calcDigit (fun c => decide (Digit c)) (fun c => .val [c]) :=
  reads_class _ _ _ inClass_digit

def factOp (c : Char) : Bool := c == '*' || c == '/'
def addOp (c : Char) : Bool := c == '+' || c == '-'

theorem short_factOp : Reads GT (.ruleName c!"fact_op") factOp (symbol c!"fact_op") := by
  refine ((reads_or (reads_lit '*') (reads_lit '/')).call (n := c!"fact_op") rfl).congr (fun c => rfl) (fun c _ => ?_)
  cases c == '*' <;> rfl

theorem short_addOp : Reads GT (.ruleName c!"add_op") addOp (symbol c!"add_op") := by
  refine ((reads_or (reads_lit '+') (reads_lit '-')).call (n := c!"add_op") rfl).congr (fun c => rfl) (fun c _ => ?_)
  cases c == '+' <;> rfl

theorem short_ws {s c o} (hb : Bill GT (.ruleName c!"_") s c o) : c = lead ' ' s + 3 ∧ o = .yes (past ' ' s) := by
  have aux : ∀ (r : Str) {c o}, Bill GT (.rep (.simple (.literal c!" ")) 0 none) r c o → c = lead ' ' r + 2 ∧ o = .yes (past ' ' r) := by
    intro r
    induction r with
    | nil =>
      intro c o h
      rcases bill_rep_cases h with ⟨r, c1, c2, rfl, h1, h2⟩ | ⟨c1, rfl, h1, h2⟩ | ⟨c1, rfl, h1, rfl⟩
      · rcases (bill_lit h1).2 with ⟨r, hr, _⟩ | ⟨_, ho⟩
        · cases hr
        · cases ho
      · rcases h2 with ⟨_, rfl⟩ | ⟨h2, _⟩
        · exact ⟨by rw [bill_simple h1]; rfl, rfl⟩
        · omega
      · rcases (bill_lit h1).2 with ⟨r, hr, _⟩ | ⟨_, ho⟩
        · cases hr
        · cases ho
    | cons d r ih =>
      intro c o h
      by_cases hd : d = ' '
      · subst hd
        obtain ⟨c1, c2, rfl, b1, b2⟩ := bill_rep (by simp) (.lit_ok c!" " r) h
        have := bill_simple b1
        obtain ⟨h1, h2⟩ := ih b2
        rw [lead_cons, past_cons]
        exact ⟨by omega, h2⟩
      · have hf : Peg GT (.simple (.literal c!" ")) (d :: r) .fail := .lit_fail c!" " (d :: r) (by rintro ⟨t, ht⟩; cases ht; exact hd rfl)
        obtain ⟨c1, rfl, b1⟩ := bill_rep_fail (by simp) hf h
        have := bill_simple b1
        rw [lead_other hd, past_other hd]
        refine ⟨by omega, bill_as h (.rep_stop (by simp) hf)⟩
  obtain ⟨c1, rfl, b1⟩ := bill_call gt_ws hb
  obtain ⟨h1, h2⟩ := aux s b1
  exact ⟨by omega, h2⟩

theorem short_op_cost {op : Str} (h : op = c!"fact_op" ∨ op = c!"add_op") {s c o} (hb : Bill GT (.ruleName op) s c o) : c ≤ 4 := by
  rcases h with rfl | rfl
  · obtain ⟨c1, rfl, b1⟩ := bill_call (e := .or [.simple (.literal c!"*"), .simple (.literal c!"/")]) rfl hb
    have := bill_or_lits b1
    omega
  · obtain ⟨c1, rfl, b1⟩ := bill_call (e := .or [.simple (.literal c!"+"), .simple (.literal c!"-")]) rfl hb
    have := bill_or_lits b1
    omega

theorem lead_length (c : Char) (s : Str) : s.length = lead c s + (past c s).length := by
  conv => lhs; rw [lead_past c s, List.length_append, List.length_replicate]

/-- an operation comes next, after spaces -/
def OpAt (p : Char → Bool) (s : Str) : Prop := ∃ d q, past ' ' s = d :: q ∧ p d = true

theorem short_num {s c o} (hb : Bill GT (.ruleName c!"num") s c o) :
    (∃ r, o = .yes r ∧ r.length < s.length ∧ c + r.length ≤ s.length + 9) ∨ (o = .no ∧ c ≤ 4) := by
  obtain ⟨c1, rfl, b1⟩ := bill_call gt_num hb
  have hd := fun {s c o} (hb : Bill GT (.rep calcDigit 1 none) s c o) => digits1_bill short_digit bill_simple hb
  have hdot : ∀ {s c o}, Bill GT (.and [.simple (.literal c!"."), .rep calcDigit 1 none]) s c o →
      (∃ r, o = .yes r ∧ r.length ≤ s.length ∧ c + r.length ≤ s.length + 3) ∨ (o = .no ∧ c ≤ 4) := by
    intro s c o hb
    rcases bill_and_cases hb with ⟨r, c1, c2, rfl, h1, h2⟩ | ⟨c1, rfl, h1, rfl⟩ | ⟨c1, rfl, h1, rfl⟩
    · obtain ⟨h3, h4⟩ := bill_lit h1
      rcases h4 with ⟨r', rfl, ho⟩ | ⟨_, ho⟩
      · cases ho
        obtain ⟨c3, rfl, h5⟩ := bill_one h2
        rcases hd h5 with ⟨q, rfl, h6, h7⟩ | ⟨rfl, rfl⟩
        · exact .inl ⟨q, rfl, by simp; omega, by simp; omega⟩
        · exact .inr ⟨rfl, by omega⟩
      · cases ho
    · have := bill_simple h1
      exact .inr ⟨rfl, by omega⟩
    · rcases (bill_lit h1).2 with ⟨r, hr, ho⟩ | ⟨_, ho⟩ <;> cases ho
  have hopt : ∀ {s c o}, Bill GT (.rep (.and [.simple (.literal c!"."), .rep calcDigit 1 none]) 0 (some 1)) s c o →
      ∃ r, o = .yes r ∧ r.length ≤ s.length ∧ c + r.length ≤ s.length + 5 := by
    intro s c o hb
    cases hb with
    | rep_yes _ h1 h2 =>
      obtain ⟨h3, rfl⟩ := rep_none_zero h2
      rcases hdot h1 with ⟨r, ho, h4, h5⟩ | ⟨ho, _⟩
      · cases ho; exact ⟨_, rfl, h4, by omega⟩
      · cases ho
    | rep_no _ h1 =>
      rcases hdot h1 with ⟨r, ho, h4, h5⟩ | ⟨ho, _⟩
      · cases ho
      · exact ⟨_, rfl, Nat.le_refl _, by omega⟩
    | rep_few _ hn _ => omega
    | rep_stop _ h1 => rcases hdot h1 with ⟨r, ho, h4, h5⟩ | ⟨ho, _⟩ <;> cases ho
  rcases bill_and_cases b1 with ⟨r, c1, c2, rfl, h1, h2⟩ | ⟨c1, rfl, h1, rfl⟩ | ⟨c1, rfl, h1, rfl⟩
  · rcases hd h1 with ⟨q, ho, h6, h7⟩ | ⟨ho, _⟩
    · cases ho
      obtain ⟨c3, rfl, h5⟩ := bill_one h2
      obtain ⟨r', rfl, h8, h9⟩ := hopt h5
      exact .inl ⟨r', rfl, by omega, by omega⟩
    · cases ho
  · rcases hd h1 with ⟨q, ho, h6, h7⟩ | ⟨_, rfl⟩
    · cases ho
    · exact .inr ⟨rfl, by omega⟩
  · rcases hd h1 with ⟨q, ho, h6, h7⟩ | ⟨ho, _⟩ <;> cases ho

theorem short_item {s c o} (hb : Bill GT (.ruleName c!"item") s c o) :
    (∃ r, o = .yes r ∧ r.length < s.length ∧ c + r.length ≤ s.length + 10) ∨ (o = .no ∧ c ≤ 5) := by
  obtain ⟨c1, rfl, b1⟩ := bill_call gt_item hb
  rcases short_num b1 with ⟨r, rfl, h1, h2⟩ | ⟨rfl, h1⟩
  · exact .inl ⟨r, rfl, h1, by omega⟩
  · exact .inr ⟨rfl, by omega⟩

theorem short_step {op e : Str} {p} (hop : Reads GT (.ruleName op) p (symbol op)) (hn : op = c!"fact_op" ∨ op = c!"add_op") {s c o}
    (hb : Bill GT (calcStep op e) s c o) :
    (o = .no ∧ c ≤ lead ' ' s + 8 ∧ ¬ OpAt p s) ∨
    ∃ n s1 k, s.length = lead ' ' s + 1 + n + s1.length ∧ OpAt p s ∧ Bill GT (.ruleName e) s1 k o ∧ c ≤ lead ' ' s + n + 11 + k := by
  have hl := lead_length ' ' s
  rcases bill_and_cases hb with ⟨r, c1, c2, rfl, h1, h2⟩ | ⟨c1, rfl, h1, rfl⟩ | ⟨c1, rfl, h1, rfl⟩
  · obtain ⟨h3, ho⟩ := short_ws h1
    cases ho
    rcases bill_and_cases h2 with ⟨r, c3, c4, rfl, h4, h5⟩ | ⟨c3, rfl, h4, rfl⟩ | ⟨c3, rfl, h4, rfl⟩
    · have h6 := short_op_cost hn h4
      rcases reads_bill hop h4 with ⟨d, q, hq, hp, ho⟩ | ⟨ho, _⟩
      · cases ho
        right
        rw [hq, List.length_cons] at hl
        have hl' := lead_length ' ' r
        rcases bill_and_cases h5 with ⟨r', c5, c6, rfl, h7, h8⟩ | ⟨c5, rfl, h7, rfl⟩ | ⟨c5, rfl, h7, rfl⟩
        · obtain ⟨h9, ho⟩ := short_ws h7
          cases ho
          obtain ⟨c7, rfl, h10⟩ := bill_one h8
          exact ⟨lead ' ' r, past ' ' r, c7, by omega, ⟨d, r, hq, hp⟩, h10, by omega⟩
        · cases (short_ws h7).2
        · cases (short_ws h7).2
      · cases ho
    · have h6 := short_op_cost hn h4
      rcases reads_bill hop h4 with ⟨d, q, hq, hp, ho⟩ | ⟨_, hno⟩
      · cases ho
      · refine .inl ⟨rfl, by omega, ?_⟩
        rintro ⟨d, q, hq, hp⟩
        rw [hno d q hq] at hp
        cases hp
    · rcases reads_bill hop h4 with ⟨d, q, hq, hp, ho⟩ | ⟨ho, _⟩ <;> cases ho
  · cases (short_ws h1).2
  · cases (short_ws h1).2

theorem short_item_paren (s : Str) : Peg GT (.ruleName c!"item") ('(' :: s) .fail :=
  .call_fail gt_item (.call_fail gt_num (.and_fail (.rep_few (by simp) (by omega)
    ((short_digit _).2 (by rintro d q ⟨⟩; decide)))))

def PortionUpTo (k : Nat) : Prop := ∀ {s c o}, s.length ≤ k → Bill GT (.ruleName c!"portion_expr") s c o →
  (∃ r, o = .yes r ∧ r.length ≤ s.length ∧ c + 40 * r.length ≤ 40 * s.length) ∨ (o = .no ∧ c ≤ 40 * s.length + 9)

theorem short_fact {k} (hk : PortionUpTo k) {s c o} (hs : s.length ≤ k) (hb : Bill GT (.ruleName c!"fact_t") s c o) :
    (∃ r, o = .yes r ∧ r.length ≤ s.length ∧ c + 40 * r.length ≤ 40 * s.length + 1) ∨ (o = .no ∧ c ≤ 40 * s.length + 10) := by
  obtain ⟨c1, rfl, b1⟩ := bill_call gt_fact hb
  rcases hk hs b1 with ⟨r, rfl, h1, h2⟩ | ⟨rfl, h1⟩
  · exact .inl ⟨r, rfl, h1, by omega⟩
  · exact .inr ⟨rfl, by omega⟩

theorem short_factors {k} (hk : PortionUpTo k) : ∀ (n : Nat) {s c o}, s.length < n → s.length ≤ k →
    Bill GT (.rep (calcStep c!"fact_op" c!"fact_t") 0 none) s c o → ∃ r, o = .yes r ∧ r.length ≤ s.length ∧
      ((¬ OpAt factOp r ∧ c + 40 * r.length ≤ 40 * s.length + lead ' ' r + 9) ∨ (OpAt factOp r ∧ c + 3 * lead ' ' r ≤ 40 * s.length + 9)) := by
  intro n
  induction n with
  | zero => intro s c o h0; omega
  | succ n ih =>
    intro s c o h0 hs hb
    rcases bill_rep_cases hb with ⟨q, c1, c2, rfl, h1, h2⟩ | ⟨c1, rfl, h1, h2⟩ | ⟨c1, rfl, h1, rfl⟩
    · rcases short_step short_factOp (.inl rfl) h1 with ⟨ho, _⟩ | ⟨n', s1, k1, hl, _, h3, h4⟩
      · cases ho
      · rcases short_fact hk (by omega) h3 with ⟨r, ho, h5, h6⟩ | ⟨ho, _⟩
        · cases ho
          obtain ⟨r, rfl, h7, h8⟩ := ih (by omega) (by omega) h2
          refine ⟨r, rfl, by omega, ?_⟩
          rcases h8 with ⟨h8, h9⟩ | ⟨h8, h9⟩
          · exact .inl ⟨h8, by omega⟩
          · exact .inr ⟨h8, by omega⟩
        · cases ho
    · rcases h2 with ⟨_, rfl⟩ | ⟨h2, _⟩
      · refine ⟨s, rfl, Nat.le_refl _, ?_⟩
        rcases short_step short_factOp (.inl rfl) h1 with ⟨_, h3, h4⟩ | ⟨n', s1, k1, hl, h5, h3, h4⟩
        · exact .inl ⟨h4, by omega⟩
        · rcases short_fact hk (by omega) h3 with ⟨r, ho, _⟩ | ⟨_, h6⟩
          · cases ho
          · exact .inr ⟨h5, by omega⟩
      · omega
    · rcases short_step short_factOp (.inl rfl) h1 with ⟨ho, _⟩ | ⟨n', s1, k1, hl, _, h3, h4⟩
      · cases ho
      · rcases short_fact hk (by omega) h3 with ⟨r, ho, _⟩ | ⟨ho, _⟩ <;> cases ho

theorem short_product {k} (hk : PortionUpTo k) {s c o} (hs : s.length ≤ k) (hb : Bill GT (.ruleName c!"add_t") s c o) :
    (∃ r, o = .yes r ∧ r.length ≤ s.length ∧ ((¬ OpAt factOp r ∧ c + 40 * r.length ≤ 40 * s.length + lead ' ' r + 12) ∨
      (OpAt factOp r ∧ c + 3 * lead ' ' r ≤ 40 * s.length + 12))) ∨ (o = .no ∧ c ≤ 40 * s.length + 12) := by
  obtain ⟨c1, rfl, b1⟩ := bill_call gt_add hb
  rcases bill_and_cases b1 with ⟨q, c1, c2, rfl, h1, h2⟩ | ⟨c1, rfl, h1, rfl⟩ | ⟨c1, rfl, h1, rfl⟩
  · rcases short_fact hk hs h1 with ⟨r, ho, h3, h4⟩ | ⟨ho, _⟩
    · cases ho
      obtain ⟨c3, rfl, h5⟩ := bill_one h2
      obtain ⟨r, rfl, h6, h7⟩ := short_factors hk _ (Nat.lt_succ_self _) (by omega) h5
      refine .inl ⟨r, rfl, by omega, ?_⟩
      rcases h7 with ⟨h8, h9⟩ | ⟨h8, h9⟩
      · exact .inl ⟨h8, by omega⟩
      · exact .inr ⟨h8, by omega⟩
    · cases ho
  · rcases short_fact hk hs h1 with ⟨r, ho, _⟩ | ⟨_, h3⟩
    · cases ho
    · exact .inr ⟨rfl, by omega⟩
  · rcases short_fact hk hs h1 with ⟨r, ho, _⟩ | ⟨ho, _⟩ <;> cases ho

theorem ops_apart {r} (h : OpAt factOp r) : ¬ OpAt addOp r := by
  rintro ⟨d, q, h1, h2⟩
  obtain ⟨d', q', h3, h4⟩ := h
  rw [h1] at h3
  cases h3
  simp only [factOp, addOp, Bool.or_eq_true, beq_iff_eq] at h2 h4
  rcases h2 with rfl | rfl <;> simp at h4

/-- the loop of `expr` where there is nothing to add -/
theorem short_no_sum {s c o} (hn : ¬ OpAt addOp s) (hb : Bill GT (.rep (calcStep c!"add_op" c!"add_t") 0 none) s c o) :
    o = .yes s ∧ c ≤ lead ' ' s + 9 := by
  rcases bill_rep_cases hb with ⟨q, c1, c2, rfl, h1, h2⟩ | ⟨c1, rfl, h1, h2⟩ | ⟨c1, rfl, h1, rfl⟩
  · rcases short_step short_addOp (.inr rfl) h1 with ⟨ho, _⟩ | ⟨_, _, _, _, h3, _⟩
    · cases ho
    · exact absurd h3 hn
  · rcases short_step short_addOp (.inr rfl) h1 with ⟨_, h3, _⟩ | ⟨_, _, _, _, h3, _⟩
    · rcases h2 with ⟨_, rfl⟩ | ⟨h2, _⟩
      · exact ⟨rfl, by omega⟩
      · omega
    · exact absurd h3 hn
  · rcases short_step short_addOp (.inr rfl) h1 with ⟨ho, _⟩ | ⟨_, _, _, _, h3, _⟩
    · cases ho
    · exact absurd h3 hn

theorem short_products {k} (hk : PortionUpTo k) : ∀ (n : Nat) {s c o}, s.length < n → s.length ≤ k →
    Bill GT (.rep (calcStep c!"add_op" c!"add_t") 0 none) s c o → ∃ r, o = .yes r ∧ r.length ≤ s.length ∧
      (c + lead ' ' s + 40 * r.length ≤ 40 * s.length + 2 * lead ' ' r + 9 ∨
        ((OpAt factOp r ∨ OpAt addOp r) ∧ c + lead ' ' s ≤ 40 * s.length + 9)) := by
  intro n
  induction n with
  | zero => intro s c o h0; omega
  | succ n ih =>
    intro s c o h0 hs hb
    by_cases hop : OpAt addOp s
    · rcases bill_rep_cases hb with ⟨q, c1, c2, rfl, h1, h2⟩ | ⟨c1, rfl, h1, h2⟩ | ⟨c1, rfl, h1, rfl⟩
      · rcases short_step short_addOp (.inr rfl) h1 with ⟨ho, _⟩ | ⟨n', s1, k1, hl, _, h3, h4⟩
        · cases ho
        · rcases short_product hk (by omega) h3 with ⟨r, ho, h5, h6⟩ | ⟨ho, _⟩
          · cases ho
            rcases h6 with ⟨_, h6⟩ | ⟨h7, h6⟩
            · obtain ⟨r, rfl, h7, h8⟩ := ih (by omega) (by omega) h2
              refine ⟨r, rfl, by omega, ?_⟩
              rcases h8 with h8 | ⟨h8, h9⟩
              · exact .inl (by omega)
              · exact .inr ⟨h8, by omega⟩
            · obtain ⟨rfl, h8⟩ := short_no_sum (ops_apart h7) h2
              exact ⟨q, rfl, by omega, .inr ⟨.inl h7, by omega⟩⟩
          · cases ho
      · rcases h2 with ⟨_, rfl⟩ | ⟨h2, _⟩
        · refine ⟨s, rfl, Nat.le_refl _, .inr ⟨.inr hop, ?_⟩⟩
          rcases short_step short_addOp (.inr rfl) h1 with ⟨_, _, h4⟩ | ⟨n', s1, k1, hl, h5, h3, h4⟩
          · exact absurd hop h4
          · rcases short_product hk (by omega) h3 with ⟨r, ho, _⟩ | ⟨_, h6⟩
            · cases ho
            · omega
        · omega
      · rcases short_step short_addOp (.inr rfl) h1 with ⟨ho, _⟩ | ⟨n', s1, k1, hl, _, h3, h4⟩
        · cases ho
        · rcases short_product hk (by omega) h3 with ⟨r, ho, _⟩ | ⟨ho, _⟩ <;> cases ho
    · obtain ⟨rfl, h1⟩ := short_no_sum hop hb
      exact ⟨s, rfl, Nat.le_refl _, .inl (by omega)⟩

theorem short_expr {k} (hk : PortionUpTo k) {s c o} (hs : s.length ≤ k) (hb : Bill GT (.ruleName c!"expr") s c o) :
    (∃ r, o = .yes r ∧ r.length ≤ s.length ∧ (c + 40 * r.length ≤ 40 * s.length + 2 * lead ' ' r + 23 ∨
      ((OpAt factOp r ∨ OpAt addOp r) ∧ c ≤ 40 * s.length + 23))) ∨ (o = .no ∧ c ≤ 40 * s.length + 14) := by
  obtain ⟨c1, rfl, b1⟩ := bill_call gt_expr hb
  rcases bill_and_cases b1 with ⟨q, c1, c2, rfl, h1, h2⟩ | ⟨c1, rfl, h1, rfl⟩ | ⟨c1, rfl, h1, rfl⟩
  · rcases short_product hk hs h1 with ⟨r, ho, h3, h4⟩ | ⟨ho, _⟩
    · cases ho
      obtain ⟨c3, rfl, h5⟩ := bill_one h2
      left
      rcases h4 with ⟨_, h4⟩ | ⟨h6, h4⟩
      · obtain ⟨r, rfl, h6, h7⟩ := short_products hk _ (Nat.lt_succ_self _) (by omega) h5
        refine ⟨r, rfl, by omega, ?_⟩
        rcases h7 with h7 | ⟨h7, h8⟩
        · exact .inl (by omega)
        · exact .inr ⟨h7, by omega⟩
      · obtain ⟨rfl, h8⟩ := short_no_sum (ops_apart h6) h5
        exact ⟨q, rfl, h3, .inr ⟨.inl h6, by omega⟩⟩
    · cases ho
  · rcases short_product hk hs h1 with ⟨r, ho, _⟩ | ⟨_, h3⟩
    · cases ho
    · exact .inr ⟨rfl, by omega⟩
  · rcases short_product hk hs h1 with ⟨r, ho, _⟩ | ⟨ho, _⟩ <;> cases ho

theorem not_op_paren (r : Str) : ¬ (OpAt factOp (')' :: r) ∨ OpAt addOp (')' :: r)) := by
  rintro (⟨d, q, h1, h2⟩ | ⟨d, q, h1, h2⟩) <;> rw [past_other (by decide)] at h1 <;> cases h1 <;> cases h2

theorem short_portion_step {k} (ih : ∀ j < k, PortionUpTo j) : PortionUpTo k := by
  intro s c o hs hb
  obtain ⟨c1, rfl, b1⟩ := bill_call gt_portion hb
  -- the second alternative
  have hitem : ∀ {c o}, Bill GT (.or [.ruleName c!"item"]) s c o →
      (∃ r, o = .yes r ∧ r.length < s.length ∧ c + r.length ≤ s.length + 11) ∨ (o = .no ∧ c ≤ 6) := by
    intro c o h
    obtain ⟨c1, rfl, h'⟩ := bill_or_one h
    rcases short_item h' with ⟨r, rfl, h1, h2⟩ | ⟨rfl, h1⟩
    · exact .inl ⟨r, rfl, h1, by omega⟩
    · exact .inr ⟨rfl, by omega⟩
  -- the first
  have hpar : ∀ {c o}, Bill GT (.and [.simple (.literal c!"("), .ruleName c!"expr", .simple (.literal c!")")]) s c o →
      (∃ r, o = .yes r ∧ r.length ≤ s.length ∧ c + 2 + 40 * r.length ≤ 40 * s.length) ∨
      (o = .no ∧ (c = 2 ∨ ∃ q, s = '(' :: q ∧ c + 7 ≤ 40 * s.length)) := by
    intro c o h
    rcases bill_and_cases h with ⟨q, c1, c2, rfl, h1, h2⟩ | ⟨c1, rfl, h1, rfl⟩ | ⟨c1, rfl, h1, rfl⟩
    · obtain ⟨rfl, h4⟩ := bill_lit h1
      rcases h4 with ⟨q', rfl, ho⟩ | ⟨_, ho⟩
      · cases ho
        simp only [List.length_append, List.length_cons, List.length_nil] at hs ⊢
        rcases bill_and_cases h2 with ⟨r, c3, c4, rfl, h5, h6⟩ | ⟨c3, rfl, h5, rfl⟩ | ⟨c3, rfl, h5, rfl⟩
        · rcases short_expr (ih (q.length) (by omega)) (Nat.le_refl _) h5 with ⟨r', ho, h7, h8⟩ | ⟨ho, _⟩
          · cases ho
            obtain ⟨c5, rfl, h9⟩ := bill_one h6
            obtain ⟨rfl, h10⟩ := bill_lit h9
            have hl := lead_length ' ' r
            rcases h10 with ⟨w, rfl, rfl⟩ | ⟨_, rfl⟩
            · left
              rcases h8 with h8 | ⟨h8, _⟩
              · rw [show lead ' ' (c!")" ++ w) = 0 from lead_other (by decide) w] at h8
                simp only [List.length_append, List.length_cons, List.length_nil] at h7 h8
                exact ⟨w, rfl, by omega, by omega⟩
              · exact absurd h8 (not_op_paren w)
            · refine .inr ⟨rfl, .inr ⟨q, rfl, ?_⟩⟩
              rcases h8 with h8 | ⟨_, h8⟩ <;> omega
          · cases ho
        · rcases short_expr (ih (q.length) (by omega)) (Nat.le_refl _) h5 with ⟨r', ho, h7, h8⟩ | ⟨_, h7⟩
          · cases ho
          · exact .inr ⟨rfl, .inr ⟨q, rfl, by omega⟩⟩
        · rcases short_expr (ih (q.length) (by omega)) (Nat.le_refl _) h5 with ⟨r', ho, h7, h8⟩ | ⟨ho, h7⟩ <;> cases ho
      · cases ho
    · have := bill_simple h1
      exact .inr ⟨rfl, .inl (by omega)⟩
    · rcases (bill_lit h1).2 with ⟨_, _, ho⟩ | ⟨_, ho⟩ <;> cases ho
  cases b1 with
  | or_no h1 h2 =>
    rcases hpar h1 with ⟨_, ho, _⟩ | ⟨_, h3⟩
    · cases ho
    · rcases hitem h2 with ⟨r, rfl, h4, h5⟩ | ⟨rfl, h4⟩
      · left
        refine ⟨r, rfl, by omega, ?_⟩
        rcases h3 with rfl | ⟨q, rfl, _⟩
        · omega
        · obtain ⟨c3, rfl, h6⟩ := bill_or_one h2
          cases bill_as h6 (short_item_paren q)
      · right
        refine ⟨rfl, ?_⟩
        rcases h3 with rfl | ⟨q, rfl, _⟩ <;> omega
  | or_yes h1 =>
    rcases hpar h1 with ⟨r, ho, h2, h3⟩ | ⟨ho, _⟩
    · cases ho; exact .inl ⟨_, rfl, h2, by omega⟩
    · cases ho
  | or_stop h1 => rcases hpar h1 with ⟨_, ho, _⟩ | ⟨ho, _⟩ <;> cases ho

theorem short_portion (k : Nat) : PortionUpTo k := by
  induction k using Nat.strongRecOn with
  | ind k ih => exact short_portion_step ih

theorem short_main_cost {s c o} (hb : Bill GT (.ruleName c!"main") s c o) : c ≤ 41 * s.length + 31 := by
  obtain ⟨c1, rfl, b1⟩ := bill_call gt_main hb
  have hl := lead_length ' ' s
  rcases bill_and_cases b1 with ⟨q, c1, c2, rfl, h1, h2⟩ | ⟨c1, rfl, h1, rfl⟩ | ⟨c1, rfl, h1, rfl⟩
  · obtain ⟨h3, ho⟩ := short_ws h1
    cases ho
    rcases bill_and_cases h2 with ⟨q, c3, c4, rfl, h4, h5⟩ | ⟨c3, rfl, h4, rfl⟩ | ⟨c3, rfl, h4, rfl⟩
    · rcases short_expr (short_portion _) (Nat.le_refl _) h4 with ⟨r, ho, h6, h7⟩ | ⟨ho, _⟩
      · cases ho
        obtain ⟨c5, rfl, h8⟩ := bill_one h5
        have h9 := (short_ws h8).1
        have hl' := lead_length ' ' q
        rcases h7 with h7 | ⟨_, h7⟩ <;> omega
      · cases ho
    · rcases short_expr (short_portion _) (Nat.le_refl _) h4 with ⟨r, ho, h6, h7⟩ | ⟨_, h7⟩
      · cases ho
      · omega
    · rcases short_expr (short_portion _) (Nat.le_refl _) h4 with ⟨r, ho, h6, h7⟩ | ⟨ho, _⟩ <;> cases ho
  · cases (short_ws h1).2
  · cases (short_ws h1).2

end DP
