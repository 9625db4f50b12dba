/-
C49: rewritings of a grammar that cannot be observed.
-/
import Verif.Proofs.Regroup
import Verif.Proofs.Decide

namespace DP
open Spec

/-- **C49**: rewriting any number of expressions by the laws of `Same`, in any places of any rules, changes no
answer of `parse` or `parse_debug`: neither a tree, nor any field of an error, nor a panic, nor the lack of an
answer. -/
theorem C49_same_answers {R R' : SetOfRules} (h : SameRules R R') (s : Str) :
    parse s R = parse s R' ∧ parseDebug s R = parseDebug s R' :=
  simulate_parse (simulates_of_same h).1 (simulates_of_same h).2 s

/-- **C49**, for the rule of one name: the others stay as they are. -/
theorem C49_same_rule {R : SetOfRules} {n : Str} {e e' : Expr} (h : Same e e') (s : Str) :
    parse s (R.add n e) = parse s (R.add n e') ∧ parseDebug s (R.add n e) = parseDebug s (R.add n e') := by
  refine C49_same_answers (fun m => ?_) s
  simp only [SetOfRules.add, SetOfRules.insertEntry]
  by_cases hm : m = n
  · subst hm; simp [h]
  · have hb : (m == n) = false := by simp [hm]
    simp only [List.lookup_cons, hb]
    cases (List.filter (fun x => x.1 != n) R.entries).lookup m with
    | none => trivial
    | some e => exact .refl e

/-- `main = ('a' 'b') 'c' / 'a' 'b'+ / ('d' / 'e')` -/
def exGrouped : SetOfRules := ⟨[(c!"main", .or [
  .and [.and [.simple (.literal c!"a"), .simple (.literal c!"b")], .simple (.literal c!"c")],
  .and [.simple (.literal c!"a"), .rep (.simple (.literal c!"b")) 1 none],
  .or [.simple (.literal c!"d"), .simple (.literal c!"e")]])]⟩

/-- `main = 'a' ('b' 'c' / 'b' 'b'*) / 'd' / 'e'` -/
def exFlat : SetOfRules := ⟨[(c!"main", .or [
  .and [.simple (.literal c!"a"), .or [
    .and [.simple (.literal c!"b"), .simple (.literal c!"c")],
    .and [.simple (.literal c!"b"), .rep (.simple (.literal c!"b")) 0 none]]],
  .simple (.literal c!"d"), .simple (.literal c!"e")])]⟩

theorem exGrouped_same : SameRules exGrouped exFlat := by
  intro n
  by_cases hn : n = c!"main"
  · subst hn
    show Same _ _
    -- the nested choice and the nested sequence
    refine .trans (.or_nest [_, _] _ _ []) ?_
    refine .trans (.or_at [] _ (.and_nest [] _ _)) ?_
    -- b+ = b b*
    refine .trans (.or_at [_] _ (.trans (.and_at [_] [] (.rep_unroll _ 0)) (.and_nest [_] [_, _] []))) ?_
    -- the common beginning
    exact .trans (.symm (.or_nest [] _ [_] [_, _])) (.or_at [] _ (.factor _ _ _))
  · have hb : (n == c!"main") = false := by simp [hn]
    simp [exGrouped, exFlat, List.lookup_cons, hb]

example : parse c!"abx" exGrouped = .err ⟨⟨3, 0, 3, 0⟩, .literal c!"b", c!"abx", [], [], .normal⟩ :=
  parse_of_fuel (f := 20) (by decide +kernel) (by simp)
example : parse c!"abx" exFlat = .err ⟨⟨3, 0, 3, 0⟩, .literal c!"b", c!"abx", [], [], .normal⟩ := by
  rw [← (C49_same_answers exGrouped_same _).1]
  exact parse_of_fuel (f := 20) (by decide +kernel) (by simp)

/-- a rule set with one rule -/
def only (e : Expr) : SetOfRules := ⟨[(c!"main", e)]⟩

/-- `(a+)+` is `a+`, by (a+)+ = a+ (a+)* = a+ a* = a+. -/
example (e : Expr) : Same (.rep (.rep e 1 none) 1 none) (.rep e 1 none) :=
  .trans (.rep_unroll _ 0) (.trans (.and_at [_] [] (.rep_star e)) (.rep_again e 1 none))

/-- the error of `('a'+)+` is the one of `'a'+`: what was remembered is that "a" could have come -/
example : parse c!"aab" (only (.rep (.rep (.simple (.literal c!"a")) 1 none) 1 none)) =
    .err ⟨⟨3, 0, 3, 0⟩, .literal c!"a", c!"aab", [], [], .normal⟩ ∧
    parse c!"aab" (only (.rep (.simple (.literal c!"a")) 1 none)) =
    .err ⟨⟨3, 0, 3, 0⟩, .literal c!"a", c!"aab", [], [], .normal⟩ :=
  ⟨parse_of_fuel (f := 30) (by decide +kernel) (by simp), parse_of_fuel (f := 30) (by decide +kernel) (by simp)⟩

/-! The laws stop here: rewritings that keep the trees of accepted texts, but not the errors. -/

/-- `a?` is not `a / ` (nothing): the optional part is remembered in the error of an incomplete match. -/
theorem C49_optional_is_not_a_choice :
    parse c!"b" (only (.rep (.simple (.literal c!"a")) 0 (some 1))) =
      .err ⟨⟨1, 0, 1, 0⟩, .literal c!"a", c!"b", [], [], .normal⟩ ∧
    parse c!"b" (only (.or [.simple (.literal c!"a"), .and []])) =
      .err ⟨⟨0, 0, 0, 0⟩, .notConsumed, [], c!"b", [], .normal⟩ :=
  ⟨parse_of_fuel (f := 20) (by decide +kernel) (by simp),
   parse_of_fuel (f := 20) (by decide +kernel) (by simp)⟩

/-- `a c / b c` is not `(a / b) c`: a choice does not come back to its other alternatives. -/
theorem C49_common_endings_false :
    parse c!"aac" (only (.or [.and [.simple (.literal c!"a"), .simple (.literal c!"c")],
      .and [.simple (.literal c!"aa"), .simple (.literal c!"c")]])) =
      .ok (.rule c!"main" [.val c!"aa", .val c!"c"]) ∧
    parse c!"aac" (only (.and [.or [.simple (.literal c!"a"), .simple (.literal c!"aa")],
      .simple (.literal c!"c")])) = .err ⟨⟨2, 0, 2, 0⟩, .literal c!"c", c!"aa", c!"c", [], .normal⟩ :=
  ⟨parse_of_fuel (f := 20) (by decide +kernel) (by simp),
   parse_of_fuel (f := 20) (by decide +kernel) (by simp)⟩

/-- A choice without alternatives cannot be left out of a choice: its error hides the others. -/
theorem C49_empty_choice_false :
    parse [] (only (.or [.simple .dot, .or []])) = .err ⟨⟨0, 0, 0, 0⟩, .orLogic, [], [], [], .normal⟩ ∧
    parse [] (only (.or [.simple .dot])) = .err ⟨⟨0, 0, 0, 0⟩, .dot, [], [], [], .normal⟩ :=
  ⟨parse_of_fuel (f := 20) (by decide +kernel) (by simp),
   parse_of_fuel (f := 20) (by decide +kernel) (by simp)⟩

end DP
