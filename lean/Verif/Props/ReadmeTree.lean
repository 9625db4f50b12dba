/-
Property C61: the tree that the calculator of README.md prints.
-/
import Verif.Props.Readme
import Verif.Props.Ast

namespace DP
open Spec Spec.Syntax Spec.Readme

/-- what the steps of `tidy` make of the children of a node -/
def tidyList (ns : List Node) : List Node :=
  Node.passList [c!"main", c!"add_t", c!"fact_t"] (Node.pruneList [c!"_"] (Node.compactNodes [] ns))

theorem tidyList_nil : tidyList [] = [] := by
  simp [tidyList, Node.compactNodes, Node.pruneList, Node.passList]

theorem compact_cons_rule (n : Str) (ns ts : List Node) :
    Node.compactNodes [] (.rule n ns :: ts) = .rule n (Node.compactNodes [] ns) :: Node.compactNodes [] ts := by
  rw [Node.compactNodes, Node.concatNodes, compactNodes_acc _ _ (Or.inr (by simp))]
  rfl

theorem tidyList_blank (n : Nat) (ts : List Node) : tidyList (blank n :: ts) = tidyList ts := by
  rw [tidyList, blank, compact_cons_rule, Node.pruneList]
  rfl

theorem tidyList_kept {n : Str} (h : n ∈ [c!"main", c!"add_t", c!"fact_t"]) (ns ts : List Node) :
    tidyList (.rule n ns :: ts) = .rule n (tidyList ns) :: tidyList ts := by
  have h1 : Node.isNamedIn [c!"_"] (.rule n (Node.compactNodes [] ns)) = false := by
    simp only [List.mem_cons, List.not_mem_nil, or_false] at h
    rcases h with rfl | rfl | rfl <;> rfl
  have h2 : ∀ l, Node.isKept [c!"main", c!"add_t", c!"fact_t"] (.rule n l) = true := by
    intro l
    simp only [List.mem_cons, List.not_mem_nil, or_false] at h
    rcases h with rfl | rfl | rfl <;> rfl
  rw [tidyList, compact_cons_rule, Node.pruneList, h1]
  simp only [Bool.not_false, if_true, Node.prune, Node.passList, h2]
  rfl

theorem tidyList_other {n : Str} (h : n ∉ [c!"main", c!"add_t", c!"fact_t"]) (h' : n ≠ c!"_") (ns ts : List Node) :
    tidyList (.rule n ns :: ts) = tidyList ns ++ tidyList ts := by
  have h1 : Node.isNamedIn [c!"_"] (.rule n (Node.compactNodes [] ns)) = false := by
    rw [Node.isNamedIn, any_eq_mem]
    simpa using h'
  have h2 : ∀ l, Node.isKept [c!"main", c!"add_t", c!"fact_t"] (.rule n l) = false := by
    intro l
    rw [Node.isKept, any_eq_mem]
    simpa using h
  rw [tidyList, compact_cons_rule, Node.pruneList, h1]
  simp only [Bool.not_false, if_true, Node.prune, Node.passList, h2]
  rfl

theorem tidyList_run {v : Str} {vs : List Str} {ts : List Node} (h : ∀ v r, ts ≠ .val v :: r) :
    tidyList (.val v :: vs.map Node.val ++ ts) = .val (v ++ vs.flatten) :: tidyList ts := by
  have e : Node.compactNodes [] (.val v :: vs.map Node.val ++ ts) =
      .val (v ++ vs.flatten) :: Node.compactNodes [] ts := by
    show Node.compactNodes [] (.val v :: (vs.map Node.val ++ ts)) = _
    rw [Node.compactNodes, Node.concatNodes]
    simp only [List.getLast?_nil]
    rw [compactNodes_run, compactNodes_acc _ _ (Or.inl h)]
    rfl
  rw [tidyList, e]
  rfl

theorem tidyList_val {v : Str} {ts : List Node} (h : ∀ v r, ts ≠ .val v :: r) :
    tidyList (.val v :: ts) = .val v :: tidyList ts := by
  simpa using tidyList_run (v := v) (vs := []) h

theorem tidyList_vals {v : Str} {vs : List Str} : tidyList ((v :: vs).map Node.val) = [.val (v :: vs).flatten] := by
  have := tidyList_run (v := v) (vs := vs) (ts := []) (by simp)
  rw [tidyList_nil, List.append_nil] at this
  exact this

theorem chars_vals (s : Str) : chars s = (s.map fun c => [c]).map Node.val := by
  simp [chars]

theorem singles_flatten : ∀ s : Str, (s.map fun c => [c]).flatten = s
  | [] => rfl
  | c :: s => by rw [List.map_cons, List.flatten_cons, singles_flatten s]; rfl

theorem tidy_numeral {s ns} (h : Numeral s ns) : tidyList ns = [.val s] := by
  have key : ∀ vs : List Str, vs ≠ [] → tidyList (vs.map Node.val) = [.val vs.flatten] := by
    intro vs hv
    cases vs with
    | nil => exact absurd rfl hv
    | cons v vs => exact tidyList_vals
  cases h with
  | whole h =>
    rw [chars_vals, key _ (by simpa using h.1), singles_flatten]
  | @frac i f h1 h2 =>
    have e : chars i ++ .val c!"." :: chars f = ((i.map fun c => [c]) ++ c!"." :: (f.map fun c => [c])).map Node.val := by
      rw [chars_vals, chars_vals]
      simp
    rw [e, key _ (by simp)]
    simp only [List.flatten_append, List.flatten_cons, singles_flatten]
    rfl

theorem squeeze_append (a b : Str) : squeeze (a ++ b) = squeeze a ++ squeeze b := List.filter_append ..

theorem squeeze_spaces : ∀ n, squeeze (spaces n) = []
  | 0 => rfl
  | n + 1 => by
    rw [spaces, List.replicate_succ]
    exact squeeze_spaces n

theorem squeeze_id {s : Str} (h : ' ' ∉ s) : squeeze s = s :=
  List.filter_eq_self.2 fun c hc => by
    have : c ≠ ' ' := fun e => h (e ▸ hc)
    simpa using this

theorem squeeze_cons {c : Char} (h : c ≠ ' ') (s : Str) : squeeze (c :: s) = c :: squeeze s :=
  List.filter_cons_of_pos (by simpa using h)

theorem numeral_no_space {s ns} (h : Numeral s ns) : ' ' ∉ s := by
  have hd : ¬ Digit ' ' := by decide
  cases h with
  | whole h => exact fun hc => hd (h.2 _ hc)
  | frac h1 h2 =>
    intro hc
    rcases List.mem_append.1 hc with hc | hc
    · exact hd (h1.2 _ hc)
    · rcases List.mem_cons.1 hc with hc | hc
      · cases hc
      · exact hd (h2.2 _ hc)

theorem symbol_tidy {kind : Str} (h : kind = c!"fact_op" ∨ kind = c!"add_op") (c : Char) (ts : List Node) :
    tidyList (symbol kind c :: ts) = .val [c] :: tidyList ts := by
  rw [symbol, tidyList_other (by rcases h with rfl | rfl <;> decide) (by rcases h with rfl | rfl <;> decide),
    tidyList_val (by simp), tidyList_nil]
  rfl

theorem tidy_number {s ns} (h : Numeral s ns) :
    tidyList [.rule c!"fact_t" [.rule c!"portion_expr" [.rule c!"item" [.rule c!"num" ns]]]] = [.rule c!"fact_t" [.val s]] := by
  rw [tidyList_kept (by decide), tidyList_other (by decide) (by decide), tidyList_other (by decide) (by decide),
    tidyList_other (by decide) (by decide), tidy_numeral h]
  simp only [tidyList_nil, List.append_nil]

theorem tidy_parens {s t ts} (h : Addition s t) (ht : tidyList [t] = ts) :
    tidyList [.rule c!"fact_t" [.rule c!"portion_expr" [.val c!"(", t, .val c!")"]]] =
      [.rule c!"fact_t" (.val c!"(" :: ts ++ [.val c!")"])] := by
  rw [tidyList_kept (by decide), tidyList_other (by decide) (by decide), tidyList_nil, List.append_nil]
  cases h with
  | mk h3 h4 =>
    rw [tidyList_val (by simp)]
    rw [tidyList_other (by decide) (by decide)] at ht ⊢
    rw [tidyList_val (by simp), tidyList_nil]
    rw [tidyList_nil, List.append_nil] at ht
    rw [ht]
    rfl

theorem tidy_factors {m n : Nat} {c : Char} {t x : Node} {ts : List Node} (h : tidyList [.rule c!"fact_t" [t]] = [x]) :
    tidyList (blank m :: symbol c!"fact_op" c :: blank n :: .rule c!"fact_t" [t] :: ts) = .val [c] :: x :: tidyList ts := by
  rw [tidyList_kept (by decide), tidyList_nil, List.cons.injEq] at h
  rw [tidyList_blank, symbol_tidy (.inl rfl), tidyList_blank, tidyList_kept (by decide), h.1]

theorem tidy_product {t x : Node} {ns : List Node} (h : tidyList [.rule c!"fact_t" [t]] = [x]) (ts : List Node) :
    tidyList (.rule c!"add_t" (.rule c!"fact_t" [t] :: ns) :: ts) = .rule c!"add_t" (x :: tidyList ns) :: tidyList ts := by
  rw [tidyList_kept (by decide), tidyList_nil, List.cons.injEq] at h
  rw [tidyList_kept (by decide), tidyList_kept (by decide), h.1]

theorem tidy_products {m n : Nat} {c : Char} {t x : Node} {ts : List Node} (h : ∀ ts, tidyList (t :: ts) = x :: tidyList ts) :
    tidyList (blank m :: symbol c!"add_op" c :: blank n :: t :: ts) = .val [c] :: x :: tidyList ts := by
  rw [tidyList_blank, symbol_tidy (.inr rfl), tidyList_blank, h]

theorem tidy_sum {t x : Node} {ns : List Node} (h : ∀ ts, tidyList (t :: ts) = x :: tidyList ts) :
    tidyList [.rule c!"expr" (t :: ns)] = x :: tidyList ns := by
  rw [tidyList_other (by decide) (by decide), tidyList_nil, List.append_nil, h]

theorem squeeze_op {m n : Nat} {c : Char} (h : c ≠ ' ') (s r : Str) :
    squeeze (spaces m ++ c :: spaces n ++ s ++ r) = c :: squeeze s ++ squeeze r := by
  rw [squeeze_append, squeeze_append, squeeze_append, squeeze_cons h, squeeze_spaces, squeeze_spaces]
  rfl

mutual
theorem factor_shown : ∀ {s t}, Factor s t → ∃ n, FactorShown (squeeze s) n ∧ tidyList [.rule c!"fact_t" [t]] = [n]
  | _, _, .numeral h => ⟨_, by rw [squeeze_id (numeral_no_space h)]; exact .numeral h, tidy_number h⟩
  | _, _, .parens h => by
    obtain ⟨ts, h1, h2⟩ := addition_shown h
    exact ⟨_, by rw [squeeze_append]; exact .parens h1, tidy_parens h h2⟩
theorem factors_shown : ∀ {s ts}, Factors s ts → FactorsShown (squeeze s) (tidyList ts)
  | _, _, .nil => by rw [tidyList_nil]; exact .nil
  | _, _, .cons hc h1 h2 => by
    obtain ⟨x, h3, h4⟩ := factor_shown h1
    rw [tidy_factors h4, squeeze_op (by rcases hc with rfl | rfl <;> decide)]
    exact .cons hc h3 (factors_shown h2)
theorem product_shown : ∀ {s t}, Product s t → ∃ n, ProductShown (squeeze s) n ∧ ∀ ts, tidyList (t :: ts) = n :: tidyList ts
  | _, _, .mk h1 h2 => by
    obtain ⟨x, h3, h4⟩ := factor_shown h1
    exact ⟨_, by rw [squeeze_append]; exact .mk h3 (factors_shown h2), tidy_product h4⟩
theorem products_shown : ∀ {s ts}, Products s ts → ProductsShown (squeeze s) (tidyList ts)
  | _, _, .nil => by rw [tidyList_nil]; exact .nil
  | _, _, .cons hc h1 h2 => by
    obtain ⟨x, h3, h4⟩ := product_shown h1
    rw [tidy_products h4, squeeze_op (by rcases hc with rfl | rfl <;> decide)]
    exact .cons hc h3 (products_shown h2)
theorem addition_shown : ∀ {s t}, Addition s t → ∃ ts, SumShown (squeeze s) ts ∧ tidyList [t] = ts
  | _, _, .mk h1 h2 => by
    obtain ⟨x, h3, h4⟩ := product_shown h1
    exact ⟨_, by rw [squeeze_append]; exact .mk h3 (products_shown h2), tidy_sum h4⟩
end

mutual
theorem factor_written : ∀ {s n}, FactorShown s n → ∃ t, Factor s t ∧ tidyList [.rule c!"fact_t" [t]] = [n]
  | _, _, .numeral h => ⟨_, .numeral h, tidy_number h⟩
  | _, _, .parens h => by
    obtain ⟨t, h1, h2⟩ := sum_written h
    exact ⟨_, .parens h1, tidy_parens h1 h2⟩
theorem factors_written : ∀ {s ts}, FactorsShown s ts → ∃ ns, Factors s ns ∧ tidyList ns = ts
  | _, _, .nil => ⟨_, .nil, tidyList_nil⟩
  | _, _, .cons hc h1 h2 => by
    obtain ⟨t, h3, e3⟩ := factor_written h1
    obtain ⟨ns, h4, e4⟩ := factors_written h2
    exact ⟨_, .cons (m := 0) (n := 0) hc h3 h4, by rw [tidy_factors e3, e4]⟩
theorem product_written : ∀ {s t}, ProductShown s t → ∃ n, Product s n ∧ ∀ ts, tidyList (n :: ts) = t :: tidyList ts
  | _, _, .mk h1 h2 => by
    obtain ⟨t, h3, e3⟩ := factor_written h1
    obtain ⟨ns, h4, e4⟩ := factors_written h2
    exact ⟨_, .mk h3 h4, fun ts => by rw [tidy_product e3, e4]⟩
theorem products_written : ∀ {s ts}, ProductsShown s ts → ∃ ns, Products s ns ∧ tidyList ns = ts
  | _, _, .nil => ⟨_, .nil, tidyList_nil⟩
  | _, _, .cons hc h1 h2 => by
    obtain ⟨t, h3, e3⟩ := product_written h1
    obtain ⟨ns, h4, e4⟩ := products_written h2
    exact ⟨_, .cons (m := 0) (n := 0) hc h3 h4, by rw [tidy_products e3, e4]⟩
theorem sum_written : ∀ {s ts}, SumShown s ts → ∃ n, Addition s n ∧ tidyList [n] = ts
  | _, _, .mk h1 h2 => by
    obtain ⟨t, h3, e3⟩ := product_written h1
    obtain ⟨ns, h4, e4⟩ := products_written h2
    exact ⟨_, .mk h3 h4, by rw [tidy_sum e3, e4]⟩
end

theorem textL_cons (t : Node) (ts : List Node) : textL (t :: ts) = text t ++ textL ts := by
  simp [text, textL, leavesL]

theorem text_rule (n : Str) (ts : List Node) : text (.rule n ts) = textL ts := by simp [text, textL, leaves]

theorem text_val (v : Str) : text (.val v) = v := by simp [text, leaves]

theorem textL_nil : textL [] = [] := by simp [textL, leavesL]

mutual
theorem factor_text : ∀ {s n}, FactorShown s n → text n = s
  | _, _, .numeral h => by simp [text_rule, textL_cons, text_val, textL_nil]
  | _, _, .parens h => by simp [text_rule, textL_cons, text_val, textL_nil, textL_append, sum_text h]
theorem factors_text : ∀ {s ts}, FactorsShown s ts → textL ts = s
  | _, _, .nil => textL_nil
  | _, _, .cons hc h1 h2 => by simp [textL_cons, text_val, factor_text h1, factors_text h2]
theorem product_text : ∀ {s t}, ProductShown s t → text t = s
  | _, _, .mk h1 h2 => by simp [text_rule, textL_cons, factor_text h1, factors_text h2]
theorem products_text : ∀ {s ts}, ProductsShown s ts → textL ts = s
  | _, _, .nil => textL_nil
  | _, _, .cons hc h1 h2 => by simp [textL_cons, text_val, product_text h1, products_text h2]
theorem sum_text : ∀ {s ts}, SumShown s ts → textL ts = s
  | _, _, .mk h1 h2 => by simp [textL_cons, product_text h1, products_text h2]
end

theorem shown_unique {u : Str} {ts ts' : List Node} (h : SumShown u ts) (h' : SumShown u ts') : ts = ts' := by
  obtain ⟨x, h1, h2⟩ := sum_written h
  obtain ⟨x', h3, h4⟩ := sum_written h'
  rw [← h2, ← h4, C60_unambiguous h1 h3]

theorem tidy_main (m n : Nat) (ns : List Node) :
    tidy (.rule c!"main" [blank m, .rule c!"expr" ns, blank n]) = .rule c!"main" (tidyList [.rule c!"expr" ns]) := by
  have e : tidy (.rule c!"main" [blank m, .rule c!"expr" ns, blank n]) =
    .rule c!"main" (tidyList [blank m, .rule c!"expr" ns, blank n]) := rfl
  rw [e, tidyList_blank, tidyList_other (by decide) (by decide), tidyList_blank, tidyList_other (by decide) (by decide)]

theorem calculator_tidy {m n : Nat} {u : Str} {x : Node} (h : Addition u x) :
    ∃ ts, SumShown (squeeze (spaces m ++ u ++ spaces n)) ts ∧ tidy (.rule c!"main" [blank m, x, blank n]) = .rule c!"main" ts := by
  obtain ⟨ts, h1, h2⟩ := addition_shown h
  refine ⟨ts, ?_, ?_⟩
  · rw [squeeze_append, squeeze_append, squeeze_spaces, squeeze_spaces, List.append_nil]
    exact h1
  · cases h with
    | mk => rw [tidy_main, h2]

/-- **C61**: what README.md prints for an expression is the sum of products of numbers and parenthesised sums
that is written, without spaces and helper rules. Every text accepted by the calculator is shown so, and every
such sum is accepted and shown so. -/
theorem C61_tree : ∃ R, rulesFromPeg Readme.calculator = .ok R ∧
    (∀ s t, parse s R = .ok t → ∃ ts, SumShown (squeeze s) ts ∧ tidy t = .rule c!"main" ts) ∧
    ∀ u ts, SumShown u ts → ∃ t, parse u R = .ok t ∧ tidy t = .rule c!"main" ts := by
  obtain ⟨R, h1, h2⟩ := C60_calculator
  refine ⟨R, h1, fun s t h => ?_, fun u ts h => ?_⟩
  · obtain ⟨m, u, x, n, rfl, h4, rfl⟩ := (h2 _ _).1 h
    exact calculator_tidy h4
  · obtain ⟨x, h3, h4⟩ := sum_written h
    refine ⟨_, (h2 _ _).2 ⟨0, u, x, 0, by simp [spaces], h3, rfl⟩, ?_⟩
    cases h3 with
    | mk => rw [tidy_main, h4]

/-- **C61**: spaces do not matter, and nothing else is lost: two accepted texts are shown alike just if they
are the same apart from spaces. -/
theorem C61_spaces : ∃ R, rulesFromPeg Readme.calculator = .ok R ∧ ∀ s s' t t', parse s R = .ok t → parse s' R = .ok t' →
    (tidy t = tidy t' ↔ squeeze s = squeeze s') := by
  obtain ⟨R, h1, h2, _⟩ := C61_tree
  refine ⟨R, h1, fun s s' t t' h h' => ?_⟩
  obtain ⟨ts, h3, h4⟩ := h2 _ _ h
  obtain ⟨ts', h5, h6⟩ := h2 _ _ h'
  rw [h4, h6]
  constructor
  · intro e
    injection e with _ e
    rw [← sum_text h3, ← sum_text h5, e]
  · intro e
    rw [e] at h3
    rw [shown_unique h3 h5]

/-- **C61**: an accepted text is accepted without its spaces, and shown alike. -/
theorem C61_without_spaces : ∃ R, rulesFromPeg Readme.calculator = .ok R ∧ ∀ s t, parse s R = .ok t →
    ∃ t', parse (squeeze s) R = .ok t' ∧ tidy t' = tidy t := by
  obtain ⟨R, h1, h2, h3⟩ := C61_tree
  refine ⟨R, h1, fun s t h => ?_⟩
  obtain ⟨ts, h4, h5⟩ := h2 _ _ h
  obtain ⟨t', h6, h7⟩ := h3 _ _ h4
  exact ⟨t', h6, h7.trans h5.symm⟩

theorem digit_shown {c : Char} (h : Digit c) : FactorShown [c] (.rule c!"fact_t" [.val [c]]) :=
  .numeral (.whole (i := [c]) ⟨by simp, by simpa using h⟩)

/-- the text of README.md, ` 1 +  2*  3 +(5/5 - (8-7))`, and what is printed for it -/
example : squeeze c!" 1 +  2*  3 +(5/5 - (8-7))" = c!"1+2*3+(5/5-(8-7))" ∧
    SumShown c!"1+2*3+(5/5-(8-7))"
      [.rule c!"add_t" [.rule c!"fact_t" [.val c!"1"]], .val c!"+",
       .rule c!"add_t" [.rule c!"fact_t" [.val c!"2"], .val c!"*", .rule c!"fact_t" [.val c!"3"]], .val c!"+",
       .rule c!"add_t" [.rule c!"fact_t" [.val c!"(",
         .rule c!"add_t" [.rule c!"fact_t" [.val c!"5"], .val c!"/", .rule c!"fact_t" [.val c!"5"]], .val c!"-",
         .rule c!"add_t" [.rule c!"fact_t" [.val c!"(", .rule c!"add_t" [.rule c!"fact_t" [.val c!"8"]], .val c!"-",
           .rule c!"add_t" [.rule c!"fact_t" [.val c!"7"]], .val c!")"]], .val c!")"]]] := by
  refine ⟨by decide, ?_⟩
  have d : ∀ c : Char, Digit c → ProductShown [c] (.rule c!"add_t" [.rule c!"fact_t" [.val [c]]]) :=
    fun c h => .mk (digit_shown h) .nil
  have h87 := FactorShown.parens (.mk (d '8' (by decide)) (.cons (c := '-') (.inr rfl) (d '7' (by decide)) .nil))
  have h55 := ProductShown.mk (digit_shown (c := '5') (by decide))
    (.cons (c := '/') (.inr rfl) (digit_shown (c := '5') (by decide)) .nil)
  have h23 := ProductShown.mk (digit_shown (c := '2') (by decide))
    (.cons (c := '*') (.inl rfl) (digit_shown (c := '3') (by decide)) .nil)
  have hp := FactorShown.parens (.mk h55 (.cons (c := '-') (.inr rfl) (.mk h87 .nil) .nil))
  exact .mk (d '1' (by decide)) (.cons (c := '+') (.inl rfl) h23 (.cons (c := '+') (.inl rfl) (.mk hp .nil) .nil))

/-- two texts with the same sum and two with different ones -/
example : squeeze c!"1 + 2" = squeeze c!" 1+  2 " ∧ squeeze c!"1+2" ≠ squeeze c!"1-2" := by decide

end DP
