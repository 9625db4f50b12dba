import Verif.Proofs.CalcShort
import Verif.Props.Effort
import Verif.Props.Readme

/-!
# C81: the work of the calculator of README.md

The rule `expr = add_t (_ add_op _ add_t)* / portion_expr` of the calculator (README.md:419-441) has an alternative that
cannot be of use: `add_t` starts with `portion_expr`, so when the first alternative fails the second does. But it is
tried: where a parenthesised expression is wrong, it is read twice, and so are those inside it. Every parenthesis that is not
closed doubles the work. Expressions take linear work. Without the alternative the trees are the same and the work is
linear for every text.
-/

namespace DP
open Spec Spec.Readme Spec.Syntax

/-- the text of the calculator without the line `/ portion_expr` of `expr` -/
def calculatorShort : Str :=
  c!"\n" ++
  c!"\n" ++
  c!"    main            =   _  expr  _\n" ++
  c!"\n" ++
  c!"    expr            =   add_t       (_  add_op  _   add_t)*\n" ++
  c!"\n" ++
  c!"    add_t           =   fact_t      (_  fact_op _   fact_t)*\n" ++
  c!"\n" ++
  c!"    fact_t          =   portion_expr\n" ++
  c!"\n" ++
  c!"    portion_expr    =   '('  expr ')'\n" ++
  c!"                    /   item\n" ++
  c!"\n" ++
  c!"    item            =   num\n" ++
  c!"\n" ++
  c!"    num             =   [0-9]+ ('.' [0-9]+)?\n" ++
  c!"    add_op          =   '+'  /  '-'\n" ++
  c!"    fact_op         =   '*'  /  '/'\n" ++
  c!"\n" ++
  c!"    _               =   ' '*\n" ++
  c!"\n" ++
  c!"        "

def calculatorShortDoc : Doc :=
  ⟨([.eol .lf, .eol .lf] ++ sps 4), defsOf (.rule c!"main" (sps 12) (sps 3) (.one (.item (.plain (.ref c!"_")) (.item [.sp, .sp] (.plain (.ref c!"expr")) (.item [.sp, .sp] (.plain (.ref c!"_")) .nil)))) ⟨[], .lf, ([.eol .lf] ++ sps 4)⟩) [
    .rule c!"expr" (sps 12) (sps 3) (.one (.item (.plain (.ref c!"add_t")) (.item (sps 7) (.star (.par [] (.one (.item (.plain (.ref c!"_")) (.item [.sp, .sp] (.plain (.ref c!"add_op")) (.item [.sp, .sp] (.plain (.ref c!"_")) (.item (sps 3) (.plain (.ref c!"add_t")) .nil))))) [])) .nil))) ⟨[], .lf, ([.eol .lf] ++ sps 4)⟩,
    .rule c!"add_t" (sps 11) (sps 3) (.one (.item (.plain (.ref c!"fact_t")) (.item (sps 6) (.star (.par [] (.one (.item (.plain (.ref c!"_")) (.item [.sp, .sp] (.plain (.ref c!"fact_op")) (.item [.sp] (.plain (.ref c!"_")) (.item (sps 3) (.plain (.ref c!"fact_t")) .nil))))) [])) .nil))) ⟨[], .lf, ([.eol .lf] ++ sps 4)⟩,
    .rule c!"fact_t" (sps 10) (sps 3) (.one (.item (.plain (.ref c!"portion_expr")) .nil)) ⟨[], .lf, ([.eol .lf] ++ sps 4)⟩,
    .rule c!"portion_expr" (sps 4) (sps 3) (.cons (.item (.plain (.lit (.single c!"("))) (.item [.sp, .sp] (.plain (.ref c!"expr")) (.item [.sp] (.plain (.lit (.single c!")"))) .nil))) ([.eol .lf] ++ sps 20) (sps 3) (.one (.item (.plain (.ref c!"item")) .nil))) ⟨[], .lf, ([.eol .lf] ++ sps 4)⟩,
    .rule c!"item" (sps 12) (sps 3) (.one (.item (.plain (.ref c!"num")) .nil)) ⟨[], .lf, ([.eol .lf] ++ sps 4)⟩,
    .rule c!"num" (sps 13) (sps 3) (.one (.item (.plus (.cls c!"" [('0', '9')])) (.item [.sp] (.opt (.par [] (.one (.item (.plain (.lit (.single c!"."))) (.item [.sp] (.plus (.cls c!"" [('0', '9')])) .nil))) [])) .nil))) ⟨[], .lf, (sps 4)⟩,
    .rule c!"add_op" (sps 10) (sps 3) (.cons (.item (.plain (.lit (.single c!"+"))) .nil) [.sp, .sp] [.sp, .sp] (.one (.item (.plain (.lit (.single c!"-"))) .nil))) ⟨[], .lf, (sps 4)⟩,
    .rule c!"fact_op" (sps 9) (sps 3) (.cons (.item (.plain (.lit (.single c!"*"))) .nil) [.sp, .sp] [.sp, .sp] (.one (.item (.plain (.lit (.single c!"/"))) .nil))) ⟨[], .lf, ([.eol .lf] ++ sps 4)⟩,
    .rule c!"_" (sps 15) (sps 3) (.one (.item (.star (.lit (.single c!" "))) .nil)) ⟨[], .lf, ([.eol .lf] ++ sps 8)⟩    ]⟩

theorem short_rules : rulesFromPeg calculatorShort = .ok shortRules :=
  rules_of_doc (d := calculatorShortDoc) (by decide +kernel) (by decide +kernel) (by decide +kernel) rfl

/-- the one line that differs -/
theorem C81_short_text : ∃ a b : Str, Readme.calculator = a ++ c!"                    /   portion_expr\n" ++ b ∧ calculatorShort = a ++ b := by
  refine ⟨c!"\n\n    main            =   _  expr  _\n\n    expr            =   add_t       (_  add_op  _   add_t)*\n",
    calculatorShort.drop 98, by decide +kernel, by decide +kernel⟩

theorem calculator_wf : WellFormed GC :=
  wf_of_check (nul := [c!"_"]) (ranks := [c!"_", c!"fact_op", c!"add_op", c!"num", c!"item", c!"portion_expr", c!"fact_t",
    c!"add_t", c!"expr", c!"main"]) (by decide +kernel)

theorem calc_bill {s m} (ha : Ascii s) (h : Uses s calculatorRules m) : ∃ o, Bill GC (.ruleName c!"main") s (m.calls + 1) o :=
  billed ((C53_effort ha _ _).1 h)

theorem opens_ascii (k : Nat) {u : Str} (hu : Ascii u) : Ascii (List.replicate k '(' ++ u) := by
  intro c hc
  rcases List.mem_append.1 hc with hc | hc
  · rw [List.eq_of_mem_replicate hc]; decide
  · exact hu c hc

theorem calc_refused {s} (ha : Ascii s) (h : Peg GC (.ruleName c!"main") s .fail) : ∃ e, parse s calculatorRules = .err e := by
  rcases C12_total_on_ascii calculator_wf ha with ⟨t, ht⟩ | he
  · cases peg_det h ((parse_iff _ _ _).1 ht).2
  · exact he

theorem calc_open_slow {u} (hu : u = [] ∨ ∃ t, Addition u t) (k : Nat) :
    Peg GC (.ruleName c!"main") (List.replicate (k + 1) '(' ++ u) .fail ∧
    ∀ c o, Bill GC (.ruleName c!"main") (List.replicate (k + 1) '(' ++ u) c o → 2 ^ (k + 2) < c := by
  rcases hu with rfl | ⟨t, ht⟩
  · refine ⟨(calc_main_slow calc_nothing k).1, fun c o hb => ?_⟩
    have := (calc_main_slow calc_nothing k).2 c o hb
    simp only [Nat.pow_succ] at this ⊢
    omega
  · cases k with
    | succ k =>
      rw [show List.replicate (k + 1 + 1) '(' ++ u = List.replicate (k + 1) '(' ++ '(' :: u by
        rw [List.replicate_succ' (n := k + 1)]; simp]
      exact calc_main_slow (calc_unclosed ht) k
    | zero =>
      have h1 := calc_unclosed ht
      have h2 := calc_ws 0 (r := '(' :: u) (by rintro q ⟨⟩)
      rw [show spaces 0 = [] from rfl, List.nil_append] at h2
      refine ⟨.call_fail gc_main (.and_tail_fail h2 (.and_fail (calc_expr_fail h1).2)), fun c o hb => ?_⟩
      obtain ⟨c1, rfl, b1⟩ := bill_call gc_main hb
      obtain ⟨c2, c3, rfl, b2, b3⟩ := bill_and h2 b1
      have := calc_ws_cost b2
      have := bill_pos b3
      omega

/-- **C81**: an expression, or nothing, after `k + 1` parentheses that are not closed is refused after more than
`2 ^ (k + 2)` calls of `parse_expr`. -/
theorem C81_unclosed : ∃ R, rulesFromPeg Readme.calculator = .ok R ∧ ∀ (k : Nat) (u : Str), (u = [] ∨ ∃ t, Addition u t) →
    (∃ e, parse (List.replicate (k + 1) '(' ++ u) R = .err e) ∧
    ∃ m, Uses (List.replicate (k + 1) '(' ++ u) R m ∧ 2 ^ (k + 2) ≤ m.calls := by
  refine ⟨_, calculator_rules, fun k u hu => ?_⟩
  have ha : Ascii (List.replicate (k + 1) '(' ++ u) := opens_ascii _ (by
    rcases hu with rfl | ⟨t, ht⟩
    · exact fun c hc => by cases hc
    · exact addition_ascii ht)
  obtain ⟨h1, h2⟩ := calc_open_slow hu k
  obtain ⟨m, hm⟩ := (C53_uses _ calculatorRules).1.mp (C12_well_formed_grammars_terminate calculator_wf (List.replicate (k + 1) '(' ++ u)).1
  obtain ⟨o, ho⟩ := calc_bill ha hm
  exact ⟨calc_refused ha h1, m, hm, by have := h2 _ _ ho; omega⟩

/-- **C81**: an accepted text takes at most linearly many. -/
theorem C81_linear : ∃ R, rulesFromPeg Readme.calculator = .ok R ∧ ∀ s t, parse s R = .ok t →
    ∃ m, Uses s R m ∧ m.calls ≤ 24 * s.length + 31 := by
  refine ⟨_, calculator_rules, fun s t h => ?_⟩
  obtain ⟨ha, hp⟩ := (parse_iff _ _ _).1 h
  obtain ⟨m, u, x, n, rfl, hS, _⟩ := (calc_main _ _).1 hp
  obtain ⟨w, hw⟩ := (C53_uses _ calculatorRules).1.mp (C12_well_formed_grammars_terminate calculator_wf (spaces m ++ u ++ spaces n)).1
  obtain ⟨o, ho⟩ := calc_bill ha hw
  exact ⟨w, hw, by have := calc_main_cost hS ho; omega⟩

/-- **C81**: without the second alternative of `expr` the same texts are accepted, with the same trees. -/
theorem C81_short_same : ∃ R R', rulesFromPeg Readme.calculator = .ok R ∧ rulesFromPeg calculatorShort = .ok R' ∧
    ∀ s t, parse s R' = .ok t ↔ parse s R = .ok t :=
  ⟨_, _, calculator_rules, short_rules, fun s t => by rw [parse_iff, parse_iff]; exact and_congr_right fun _ => short_main⟩

/-- **C81**: and every ASCII text, accepted or not, takes at most linearly many calls. -/
theorem C81_short_linear : ∃ R, rulesFromPeg calculatorShort = .ok R ∧ ∀ s, Ascii s →
    ∃ m, Uses s R m ∧ m.calls ≤ 41 * s.length + 30 := by
  refine ⟨_, short_rules, fun s ha => ?_⟩
  obtain ⟨w, hw⟩ := (C53_uses s shortRules).1.mp (C12_well_formed_grammars_terminate short_wf s).1
  obtain ⟨o, ho⟩ := billed ((C53_effort ha _ _).1 hw)
  exact ⟨w, hw, by have := short_main_cost ho; omega⟩

/-! ### Concretely -/

/-- six parentheses and `1` -/
example : ∃ R, rulesFromPeg Readme.calculator = .ok R ∧ ∃ m, Uses c!"((((((1" R m ∧ 128 ≤ m.calls := by
  obtain ⟨R, hR, h⟩ := C81_unclosed
  exact ⟨R, hR, (h 5 c!"1" (.inr ⟨_, .mk (.mk (one_digit (by decide)) .nil) .nil⟩)).2⟩

/-- the calls for one, two and three: with and without the alternative -/
example : Uses c!"(1" calculatorRules ⟨104, 24⟩ ∧ Uses c!"((1" calculatorRules ⟨228, 33⟩ ∧ Uses c!"(((1" calculatorRules ⟨476, 42⟩ :=
  ⟨⟨100, by decide +kernel, by decide +kernel⟩, ⟨100, by decide +kernel, by decide +kernel⟩, ⟨100, by decide +kernel, by decide +kernel⟩⟩

example : Uses c!"(1" shortRules ⟨55, 22⟩ ∧ Uses c!"((1" shortRules ⟨69, 30⟩ ∧ Uses c!"(((1" shortRules ⟨83, 38⟩ :=
  ⟨⟨100, by decide +kernel, by decide +kernel⟩, ⟨100, by decide +kernel, by decide +kernel⟩, ⟨100, by decide +kernel, by decide +kernel⟩⟩

/-- an accepted text -/
example : ∃ R t, rulesFromPeg Readme.calculator = .ok R ∧ parse c!" 7" R = .ok t ∧ ∃ m, Uses c!" 7" R m ∧ m.calls ≤ 79 := by
  obtain ⟨R, hR, h⟩ := C60_calculator
  obtain ⟨R', hR', h'⟩ := C81_linear
  cases hR.symm.trans hR'
  have := (h c!" 7" _).2 ⟨1, c!"7", _, 0, rfl, .mk (.mk (one_digit (by decide)) .nil) .nil, rfl⟩
  exact ⟨R, _, hR, this, h' _ _ this⟩

/-- the texts of both -/
example : ∃ R, rulesFromPeg calculatorShort = .ok R ∧ (∃ t, parse c!" 7" R = .ok t) ∧ ¬ ∃ t, parse c!"((7" R = .ok t := by
  obtain ⟨R, R', hR, hR', h⟩ := C81_short_same
  obtain ⟨R1, hR1, h1⟩ := C60_calculator
  obtain ⟨R2, hR2, h2⟩ := C81_unclosed
  cases hR.symm.trans hR1
  cases hR.symm.trans hR2
  refine ⟨R', hR', ⟨_, (h _ _).2 ((h1 c!" 7" _).2 ⟨1, c!"7", _, 0, rfl, .mk (.mk (one_digit (by decide)) .nil) .nil, rfl⟩)⟩, ?_⟩
  rintro ⟨t, ht⟩
  obtain ⟨e, he⟩ := (h2 1 c!"7" (.inr ⟨_, .mk (.mk (one_digit (by decide)) .nil) .nil⟩)).1
  have := (h _ _).1 ht
  rw [show c!"((7" = List.replicate (1 + 1) '(' ++ c!"7" from rfl, he] at this
  cases this

end DP
