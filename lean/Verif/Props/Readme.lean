/-
Property C60: the grammars of README.md do what README.md says.
-/
import Verif.Proofs.ReadmeCalc
import Verif.Proofs.SynCheck
import Verif.Proofs.Decide
import Verif.Props.Core
import Verif.Props.Errors

namespace DP
open Spec Spec.Syntax Spec.Readme

theorem parse_iff (s : Str) (R : SetOfRules) (t : Node) :
    parse s R = .ok t ↔ Ascii s ∧ Peg (denotes R) (.ruleName c!"main") s (.ok [] [t]) := by
  constructor
  · intro h
    have ha := C17_ok_only_on_ascii h
    exact ⟨ha, (C02_parse_ok_iff_peg_any_bounds R t ha).1 h⟩
  · rintro ⟨ha, h⟩
    exact (C02_parse_ok_iff_peg_any_bounds R t ha).2 h

theorem rules_of_doc {text : Str} {d : Doc} {R : SetOfRules} (h1 : d.str = text) (h2 : docOK d = true)
    (h3 : Ascii text) (h4 : defsRules SetOfRules.empty d.defs = some R) : rulesFromPeg text = .ok R := by
  rw [← h1] at h3 ⊢
  exact (rulesFromPeg_doc (docOK_sound h2) h3).1 R h4

theorem digit_ascii {c : Char} (h : Digit c) : c.toNat < 128 := by
  have := char_le_iff.1 h.2
  have h9 : '9'.toNat = 57 := rfl
  omega

theorem letter_ascii {c : Char} (h : Letter c) : c.toNat < 128 := by
  have hz : 'z'.toNat = 122 := rfl
  have hZ : 'Z'.toNat = 90 := rfl
  rcases h with h | h
  · have := char_le_iff.1 h.2; omega
  · have := char_le_iff.1 h.2; omega

/-! ### The basic example -/

theorem basic_rules : rulesFromPeg Readme.basic = .ok basicRules :=
  rules_of_doc (d := basicDoc) (by decide +kernel) (by decide +kernel) (by decide +kernel) rfl

/-- **C60**: the grammar of the basic example accepts exactly a letter followed by one or more letters and
digits, and the tree has one node for each character. -/
theorem C60_basic : ∃ R, rulesFromPeg Readme.basic = .ok R ∧ ∀ s t, parse s R = .ok t ↔
    ∃ c r, s = c :: r ∧ Letter c ∧ r ≠ [] ∧ (∀ d ∈ r, Letter d ∨ Digit d) ∧
      t = .rule c!"main" (.rule c!"letter" [.val [c]] :: r.map wordNode) := by
  refine ⟨_, basic_rules, fun s t => ?_⟩
  rw [parse_iff, basic_main]
  refine ⟨And.right, fun h => ⟨?_, h⟩⟩
  obtain ⟨c, r, rfl, hc, _, hr, _⟩ := h
  intro d hd
  rcases List.mem_cons.mp hd with rfl | hd
  · exact letter_ascii hc
  · exact (hr d hd).elim letter_ascii digit_ascii

/-- the text of README.md:114 -/
example : ∀ R, rulesFromPeg Readme.basic = .ok R → ∃ t, parse c!"a2AA456bzJ88" R = .ok t := by
  intro R h
  obtain ⟨R', h1, h2⟩ := C60_basic
  rw [h] at h1
  cases h1
  exact ⟨_, (h2 _ _).2 ⟨'a', c!"2AA456bzJ88", rfl, by decide, by decide, by decide, rfl⟩⟩

/-- the tree of README.md:161-208 -/
example : ∀ R, rulesFromPeg Readme.basic = .ok R → parse c!"a2Z" R = .ok (.rule c!"main" [.rule c!"letter" [.val c!"a"],
    .rule c!"letter_or_num" [.rule c!"number" [.val c!"2"]], .rule c!"letter_or_num" [.rule c!"letter" [.val c!"Z"]]]) := by
  intro R h
  obtain ⟨R', h1, h2⟩ := C60_basic
  rw [h] at h1
  cases h1
  exact (h2 _ _).2 ⟨'a', c!"2Z", rfl, by decide, by decide, by decide, rfl⟩

/-! ### The second example -/

theorem second_rules : rulesFromPeg Readme.second = .ok secondRules :=
  rules_of_doc (d := secondDoc) (by decide +kernel) (by decide +kernel) (by decide +kernel) rfl

/-- **C60**: the grammar of the second example accepts four texts. -/
theorem C60_second : ∃ R, rulesFromPeg Readme.second = .ok R ∧ ∀ s, (∃ t, parse s R = .ok t) ↔
    s ∈ [c!"abcc", c!"abcdd", c!"abcd", c!"abcz"] := by
  refine ⟨_, second_rules, fun s => ⟨fun ⟨t, h⟩ => second_inv ((parse_iff _ _ _).1 h).2, fun h => ?_⟩⟩
  simp only [List.mem_cons, List.not_mem_nil, or_false] at h
  rcases h with rfl | rfl | rfl | rfl
  · exact ⟨.rule c!"main" [.val c!"a", .val c!"bc", .val c!"c"], parse_of_fuel (f := 20) (by decide +kernel) (by simp)⟩
  · exact ⟨.rule c!"main" [.val c!"a", .val c!"bcdd"], parse_of_fuel (f := 20) (by decide +kernel) (by simp)⟩
  · exact ⟨.rule c!"main" [.val c!"a", .rule c!"b_and_c" [.val c!"b", .val c!"c"], .rule c!"d_or_z" [.val c!"d"]],
      parse_of_fuel (f := 20) (by decide +kernel) (by simp)⟩
  · exact ⟨.rule c!"main" [.val c!"a", .rule c!"b_and_c" [.val c!"b", .val c!"c"], .rule c!"d_or_z" [.val c!"z"]],
      parse_of_fuel (f := 20) (by decide +kernel) (by simp)⟩

/-- "bczd" is rejected (README.md:287) -/
example : ∃ R, rulesFromPeg Readme.second = .ok R ∧ ∀ t, parse c!"bczd" R ≠ .ok t := by
  obtain ⟨R, h1, h2⟩ := C60_second
  exact ⟨R, h1, fun t h => absurd ((h2 _).1 ⟨t, h⟩) (by decide)⟩

/-! ### The calculator -/

theorem calculator_rules : rulesFromPeg Readme.calculator = .ok calculatorRules :=
  rules_of_doc (d := calculatorDoc) (by decide +kernel) (by decide +kernel) (by decide +kernel) rfl

theorem spaces_ascii (n : Nat) : Ascii (spaces n) := fun c hc => by
  rw [List.eq_of_mem_replicate hc]; decide

theorem ascii_op {m c n s r} (hc : c.toNat < 128) (hs : Ascii s) (hr : Ascii r) :
    Ascii (spaces m ++ c :: spaces n ++ s ++ r) := by
  intro d hd
  simp only [List.mem_append, List.mem_cons] at hd
  rcases hd with ((h | rfl | h) | h) | h
  · exact spaces_ascii m d h
  · exact hc
  · exact spaces_ascii n d h
  · exact hs d h
  · exact hr d h

theorem ascii_two {s r : Str} (hs : Ascii s) (hr : Ascii r) : Ascii (s ++ r) := by
  intro d hd
  rcases List.mem_append.mp hd with h | h
  · exact hs d h
  · exact hr d h

mutual
theorem factor_ascii : ∀ {s t}, Factor s t → Ascii s
  | _, _, .numeral h => by
    cases h with
    | whole h => exact fun c hc => digit_ascii (h.2 c hc)
    | frac h h' =>
      refine ascii_two (fun c hc => digit_ascii (h.2 c hc)) fun c hc => ?_
      rcases List.mem_cons.mp hc with rfl | hc
      · decide
      · exact digit_ascii (h'.2 c hc)
  | _, _, .parens h => ascii_two (r := c!")") (s := '(' :: _) (fun c hc => by
      rcases List.mem_cons.mp hc with rfl | hc
      · decide
      · exact addition_ascii h c hc) (by decide)
theorem factors_ascii : ∀ {s ts}, Factors s ts → Ascii s
  | _, _, .nil => fun c hc => by cases hc
  | _, _, .cons hc h1 h2 => ascii_op (by rcases hc with rfl | rfl <;> decide) (factor_ascii h1) (factors_ascii h2)
theorem product_ascii : ∀ {s t}, Product s t → Ascii s
  | _, _, .mk h1 h2 => ascii_two (factor_ascii h1) (factors_ascii h2)
theorem products_ascii : ∀ {s ts}, Products s ts → Ascii s
  | _, _, .nil => fun c hc => by cases hc
  | _, _, .cons hc h1 h2 => ascii_op (by rcases hc with rfl | rfl <;> decide) (product_ascii h1) (products_ascii h2)
theorem addition_ascii : ∀ {s t}, Addition s t → Ascii s
  | _, _, .mk h1 h2 => ascii_two (product_ascii h1) (products_ascii h2)
end

/-- **C60**: the calculator accepts exactly the arithmetic expressions, with spaces around them, and the
tree is that of the expression: sums of products of numerals and parenthesised sums. -/
theorem C60_calculator : ∃ R, rulesFromPeg Readme.calculator = .ok R ∧ ∀ s t, parse s R = .ok t ↔
    ∃ m u x n, s = spaces m ++ u ++ spaces n ∧ Addition u x ∧ t = .rule c!"main" [blank m, x, blank n] := by
  refine ⟨_, calculator_rules, fun s t => ?_⟩
  rw [parse_iff, calc_main]
  refine ⟨And.right, fun h => ⟨?_, h⟩⟩
  obtain ⟨m, u, x, n, rfl, h, _⟩ := h
  exact ascii_two (ascii_two (spaces_ascii m) (addition_ascii h)) (spaces_ascii n)

/-- **C60**: the expressions of the calculator are unambiguous. -/
theorem C60_unambiguous {u : Str} {x x' : Node} (h : Addition u x) (h' : Addition u x') : x = x' := by
  have h1 := calc_sum h (after_spaces 0)
  have h2 := calc_sum h' (after_spaces 0)
  have := peg_det h1 h2
  simpa using this

theorem one_digit {c : Char} (h : Digit c) : Factor [c] (.rule c!"portion_expr" [.rule c!"item" [.rule c!"num" [.val [c]]]]) :=
  .numeral (.whole (i := [c]) ⟨by simp, by simpa using h⟩)

/-- `1 + 2*3` is a sum of two products, the second one of two factors -/
example : ∃ x y z, Addition c!"1 + 2*3" (.rule c!"expr" [.rule c!"add_t" [x], blank 1, symbol c!"add_op" '+', blank 1,
    .rule c!"add_t" [y, blank 0, symbol c!"fact_op" '*', blank 0, z]]) := by
  have h1 := Product.mk (one_digit (c := '1') (by decide)) .nil
  have h2 := Product.mk (one_digit (c := '2') (by decide))
    (.cons (m := 0) (n := 0) (c := '*') (.inl rfl) (one_digit (c := '3') (by decide)) .nil)
  exact ⟨_, _, _, Addition.mk h1 (.cons (m := 1) (n := 1) (c := '+') (.inl rfl) h2 .nil)⟩

/-- a text that is not an expression -/
example : ∃ R, rulesFromPeg Readme.calculator = .ok R ∧ ∀ t, parse [] R ≠ .ok t := by
  obtain ⟨R, h1, h2⟩ := C60_calculator
  refine ⟨R, h1, fun t h => ?_⟩
  obtain ⟨m, u, x, n, h3, h4, _⟩ := (h2 _ _).1 h
  cases h4 with
  | mk h5 _ => cases h5 with
    | mk h6 _ => cases h6 with
      | parens => simp at h3
      | numeral h7 =>
        obtain ⟨c, q, rfl, _⟩ := numeral_start h7
        simp at h3

/-! ### The alternatives of a choice -/

theorem hello_rules : rulesFromPeg Readme.hello = .ok helloRules :=
  rules_of_doc (d := helloDoc) (by decide +kernel) (by decide +kernel) (by decide +kernel) rfl

/-- **C60**: of `'hello' / 'hello world' / 'hola'` the second alternative is never used. -/
theorem C60_hello : ∃ R, rulesFromPeg Readme.hello = .ok R ∧ ∀ s t, parse s R = .ok t ↔
    ((s = c!"hello" ∨ s = c!"hola") ∧ t = .rule c!"main" [.val s]) := by
  refine ⟨_, hello_rules, fun s t => ?_⟩
  rw [parse_iff, hello_main]
  refine ⟨And.right, fun h => ⟨?_, h⟩⟩
  rcases h.1 with rfl | rfl <;> decide

example : ∃ R, rulesFromPeg Readme.hello = .ok R ∧ ∀ t, parse c!"hello world" R ≠ .ok t := by
  obtain ⟨R, h1, h2⟩ := C60_hello
  exact ⟨R, h1, fun t h => absurd ((h2 _ _).1 h).1 (by decide)⟩

/-! ### Negation -/

theorem until_rules : rulesFromPeg Readme.untilA = .ok untilRules :=
  rules_of_doc (d := untilADoc) (by decide +kernel) (by decide +kernel) (by decide +kernel) rfl

/-- **C60**: `(!'a' .)* 'a'` consumes everything until an `a`, and that `a`. -/
theorem C60_until : ∃ R, rulesFromPeg Readme.untilA = .ok R ∧ ∀ s t, parse s R = .ok t ↔
    Ascii s ∧ ∃ w, s = w ++ c!"a" ∧ 'a' ∉ w ∧ t = .rule c!"main" (chars s) := by
  refine ⟨_, until_rules, fun s t => ?_⟩
  rw [parse_iff, until_main]

example : ∃ R, rulesFromPeg Readme.untilA = .ok R ∧ ∀ t, parse c!"banana" R ≠ .ok t := by
  obtain ⟨R, h1, h2⟩ := C60_until
  refine ⟨R, h1, fun t h => ?_⟩
  obtain ⟨_, w, hw, hn, _⟩ := (h2 _ _).1 h
  have : w = c!"banan" := by
    have := congrArg List.dropLast hw
    simpa using this.symm
  subst this
  exact hn (by decide)

/-! ### A message of one's own -/

theorem unbalanced_rules : rulesFromPeg Readme.unbalanced = .ok unbalancedRules :=
  rules_of_doc (d := unbalancedDoc) (by decide +kernel) (by decide +kernel) (by decide +kernel) rfl

theorem parens_ascii (n m : Nat) : Ascii (parens n m) := by
  refine ascii_two (ascii_two (fun c hc => ?_) (by decide)) (fun c hc => ?_)
  · rw [List.eq_of_mem_replicate hc]; decide
  · rw [List.eq_of_mem_replicate hc]; decide

/-- **C60**: the grammar with the message accepts exactly `hello` in balanced parentheses; if some closing
parentheses are missing, and what comes instead is not one, the error is Critical, has that message, and is
at the place where the parenthesis is missing; no other text has a Critical error. -/
theorem C60_unbalanced : ∃ R, rulesFromPeg Readme.unbalanced = .ok R ∧
    (∀ s t, parse s R = .ok t ↔ ∃ n, s = parens n n ∧ t = nested n) ∧
    (∀ n m q, m < n → q.head? ≠ some ')' → Ascii q → ∃ e, parse (parens n m ++ q) R = .err e ∧
      e.priority = .critical ∧ e.descr = .custom c!"unbalanced parenthesis" ∧ CoordsOf (parens n m) e.pos) ∧
    (∀ s e, parse s R = .err e → e.priority = .critical →
      ∃ n m q, m < n ∧ q.head? ≠ some ')' ∧ s = parens n m ++ q) := by
  refine ⟨_, unbalanced_rules, fun s t => ?_, fun n m q hm hq ha => ?_, fun s e he hc => ?_⟩
  · rw [parse_iff]
    constructor
    · rintro ⟨_, h⟩
      obtain ⟨n, h1, h2⟩ := unbalanced_inv _ (Nat.le_refl _) h
      exact ⟨n, by simpa using h1, by simpa using h2⟩
    · rintro ⟨n, rfl, rfl⟩
      have := unbalanced_ok n []
      rw [List.append_nil] at this
      exact ⟨parens_ascii n n, this⟩
  · obtain ⟨e, h1, h2, h3, pre, h4, h5⟩ := C09_critical_errors_are_final
      (ascii_two (parens_ascii n m) ha) (hits_iff_crit.2 (unbalanced_crit n hm hq))
    rw [← List.append_cancel_right h4] at h5
    exact ⟨e, h1, h2, h3, h5⟩
  · obtain ⟨pre, q, h1, _, h2⟩ := C09_critical_errors_were_reached he hc
    obtain ⟨_, n, m, h3, h4, h5⟩ := unbalanced_crit_inv _ (Nat.le_refl _) (hits_iff_crit.1 h2)
    exact ⟨n, m, q, h3, h5, h4⟩

/-- `((hello)` (README.md:773) -/
example : ∃ R e, rulesFromPeg Readme.unbalanced = .ok R ∧ parse c!"((hello)" R = .err e ∧
    e.descr = .custom c!"unbalanced parenthesis" ∧ CoordsOf c!"((hello)" e.pos := by
  obtain ⟨R, h1, _, h2, _⟩ := C60_unbalanced
  obtain ⟨e, h3, _, h4, h5⟩ := h2 2 1 [] (by omega) (by simp) (by decide)
  exact ⟨R, e, h1, h3, h4, h5⟩

/-! ### Priority -/

/-- **C60**: a choice binds weaker than a sequence: the first two texts of README.md about priority have
the same rules, and the third accepts a text that they do not. -/
theorem C60_priority : ∃ R R', rulesFromPeg Readme.plain = .ok R ∧ rulesFromPeg Readme.grouped = .ok R ∧
    rulesFromPeg Readme.regrouped = .ok R' ∧
    (∀ s, (∃ t, parse s R = .ok t) ↔ s = c!"AB" ∨ s = c!"BC") ∧
    (∀ s, (∃ t, parse s R' = .ok t) ↔ s = c!"ABC" ∨ s = c!"BC") := by
  refine ⟨_, _, rules_of_doc (d := plainDoc) (by decide +kernel) (by decide +kernel) (by decide +kernel) rfl,
    rules_of_doc (d := groupedDoc) (by decide +kernel) (by decide +kernel) (by decide +kernel) rfl,
    rules_of_doc (d := regroupedDoc) (by decide +kernel) (by decide +kernel) (by decide +kernel) rfl,
    fun s => ⟨fun ⟨t, h⟩ => ?_, fun h => ?_⟩, fun s => ⟨fun ⟨t, h⟩ => ?_, fun h => ?_⟩⟩
  · obtain ⟨cs, _, h1⟩ := inv_call (e := .or [.and [.simple (.literal c!"A"), .simple (.literal c!"B")],
      .and [.simple (.literal c!"B"), .simple (.literal c!"C")]]) rfl ((parse_iff _ _ _).1 h).2
    obtain ⟨e, he, h2⟩ := inv_or h1
    simp only [List.mem_cons, List.not_mem_nil, or_false] at he
    rcases he with rfl | rfl <;> obtain ⟨q, _, _, h3, h4, _⟩ := inv_two h2 <;> rw [(inv_lit h3).1, (inv_lit h4).1] <;> decide
  · rcases h with rfl | rfl
    · exact ⟨.rule c!"main" [.val c!"A", .val c!"B"], parse_of_fuel (f := 20) (by decide +kernel) (by simp)⟩
    · exact ⟨.rule c!"main" [.val c!"B", .val c!"C"], parse_of_fuel (f := 20) (by decide +kernel) (by simp)⟩
  · obtain ⟨cs, _, h1⟩ := inv_call (e := .and [.or [.and [.simple (.literal c!"A"), .simple (.literal c!"B")],
      .simple (.literal c!"B")], .simple (.literal c!"C")]) rfl ((parse_iff _ _ _).1 h).2
    obtain ⟨q, _, _, h3, h4, _⟩ := inv_two h1
    obtain ⟨e, he, h2⟩ := inv_or h3
    simp only [List.mem_cons, List.not_mem_nil, or_false] at he
    rcases he with rfl | rfl
    · obtain ⟨q, _, _, h5, h6, _⟩ := inv_two h2
      rw [(inv_lit h5).1, (inv_lit h6).1, (inv_lit h4).1]; decide
    · rw [(inv_lit h2).1, (inv_lit h4).1]; decide
  · rcases h with rfl | rfl
    · exact ⟨.rule c!"main" [.val c!"A", .val c!"B", .val c!"C"], parse_of_fuel (f := 20) (by decide +kernel) (by simp)⟩
    · exact ⟨.rule c!"main" [.val c!"B", .val c!"C"], parse_of_fuel (f := 20) (by decide +kernel) (by simp)⟩

example : ∃ R R', rulesFromPeg Readme.plain = .ok R ∧ rulesFromPeg Readme.regrouped = .ok R' ∧
    (∀ t, parse c!"ABC" R ≠ .ok t) ∧ ∃ t, parse c!"ABC" R' = .ok t := by
  obtain ⟨R, R', h1, _, h2, h3, h4⟩ := C60_priority
  exact ⟨R, R', h1, h2, fun t h => absurd ((h3 _).1 ⟨t, h⟩) (by decide), (h4 _).2 (.inl rfl)⟩

end DP
