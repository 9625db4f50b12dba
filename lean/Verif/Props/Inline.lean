/-
C55: a rule and its body.
-/
import Verif.Proofs.Inline
import Verif.Proofs.Decide

namespace DP
open Spec

variable {R R' : SetOfRules} {D S : Str → Prop}

/-- **C55**: in any places of any rules, the name of a rule is replaced by its body or the other way round. `parse`
gives the same errors, with all their fields, panics on the same texts and loops on the same texts. The trees are the
same but for the nodes of the rules so treated: they are equal when these are dissolved by `pass_through_except`. -/
theorem C55_inlining (h : UnfoldsRules R R' D S) {keep : List Str} (hk : ∀ n ∈ keep, ¬ D n) (s : Str) :
    SameBut keep (parse s R) (parse s R') := by
  have h1 := inline_main h hk s
  have h2 := inline_main h.symm hk s
  rw [parse_eq, parse_eq]
  revert h1 h2
  rcases runRule R (Status.init s) c!"main" with ⟨st, t⟩ | e | _ | _ <;>
    rcases runRule R' (Status.init s) c!"main" with ⟨st', t'⟩ | e' | _ | _ <;> intro h1 h2
  · obtain ⟨hst, n, a, b, rfl, rfl, hab⟩ := h1
    simp only at hst ⊢
    rw [← hst]
    split
    · simp only [SameBut, Node.passThrough, hab]
    · cases st.potentialError with
      | some e => rfl
      | none =>
        simp only
        unfold raise
        cases fromStatus st .notConsumed .normal
        · trivial
        · rfl
  all_goals first | exact h1 | exact False.elim h1 | exact False.elim h2

/-- **C55**: so the accepted texts are the same. -/
theorem C55_same_language (h : UnfoldsRules R R' D S) (s : Str) : (∃ t, parse s R = .ok t) ↔ ∃ t, parse s R' = .ok t := by
  have := C55_inlining h (keep := []) (by simp) s
  revert this
  rcases parse s R with t | e | _ | _ <;> rcases parse s R' with t' | e' | _ | _ <;> intro h <;>
    first | exact False.elim h | simp

/-- **C55**: and so are the errors. -/
theorem C55_same_errors (h : UnfoldsRules R R' D S) (s : Str) (e : Error) : parse s R = .err e ↔ parse s R' = .err e := by
  have := C55_inlining h (keep := []) (by simp) s
  revert this
  rcases parse s R with t | e | _ | _ <;> rcases parse s R' with t' | e' | _ | _ <;> intro h <;>
    first | exact False.elim h | (have h : _ = _ := h; simp [h]) | simp

/-- **C55**: and so are the texts on which there is no answer. -/
theorem C55_same_loops (h : UnfoldsRules R R' D S) (s : Str) : parse s R = .diverge ↔ parse s R' = .diverge := by
  have := C55_inlining h (keep := []) (by simp) s
  revert this
  rcases parse s R with t | e | _ | _ <;> rcases parse s R' with t' | e' | _ | _ <;> intro h <;>
    first | exact False.elim h | simp

mutual
theorem unfolds_refl {G G' : Str → Option Expr} (hS : ∀ n, S n) : ∀ e, Unfolds G G' D S e e
  | .simple a => .simple a
  | .and es => (unfolds_refls hS es).1
  | .or es => (unfolds_refls hS es).2
  | .not e => .not (unfolds_refl hS e)
  | .rep e mn mx => .rep mn mx (unfolds_refl hS e)
  | .ruleName n => .call (hS n)
theorem unfolds_refls {G G' : Str → Option Expr} (hS : ∀ n, S n) : ∀ es, Unfolds G G' D S (.and es) (.and es) ∧ Unfolds G G' D S (.or es) (.or es)
  | [] => ⟨.and_nil, .or_nil⟩
  | e :: es => ⟨.and_cons (unfolds_refl hS e) (unfolds_refls hS es).1, .or_cons (unfolds_refl hS e) (unfolds_refls hS es).2⟩
end

mutual
theorem unfolds_inl {G G' : Str → Option Expr} (hS : ∀ n, S n) {n b} (hD : D n) (hb : G n = some b) :
    ∀ e, Unfolds G G' D S e (inlExpr n b e)
  | .simple a => .simple a
  | .and es => (unfolds_inls hS hD hb es).1
  | .or es => (unfolds_inls hS hD hb es).2
  | .not e => .not (unfolds_inl hS hD hb e)
  | .rep e mn mx => .rep mn mx (unfolds_inl hS hD hb e)
  | .ruleName m => by
    rw [inlExpr]
    split
    · rename_i h; rw [h]; exact .left hD hb (unfolds_refl hS b)
    · exact .call (hS m)
theorem unfolds_inls {G G' : Str → Option Expr} (hS : ∀ n, S n) {n b} (hD : D n) (hb : G n = some b) :
    ∀ es, Unfolds G G' D S (.and es) (.and (inlExprs n b es)) ∧ Unfolds G G' D S (.or es) (.or (inlExprs n b es))
  | [] => ⟨.and_nil, .or_nil⟩
  | e :: es => ⟨.and_cons (unfolds_inl hS hD hb e) (unfolds_inls hS hD hb es).1,
      .or_cons (unfolds_inl hS hD hb e) (unfolds_inls hS hD hb es).2⟩
end

theorem get_inlRules (n b) (R : SetOfRules) (m : Str) : (inlRules n b R).get m = (R.get m).map (inlExpr n b) := by
  obtain ⟨es⟩ := R
  simp only [inlRules, SetOfRules.get]
  induction es with
  | nil => rfl
  | cons x xs ih =>
    obtain ⟨k, e⟩ := x
    simp only [List.map_cons, List.lookup_cons]
    cases m == k with
    | true => rfl
    | false => exact ih

/-- **C55**, for all calls of one rule: the rule may be recursive, and it may be `main`. -/
theorem C55_inline_rule {n : Str} {b : Expr} (hb : grammar R n = some b) {keep : List Str} (hk : n ∉ keep) (s : Str) :
    SameBut keep (parse s R) (parse s (inlRules n b R)) := by
  refine C55_inlining (D := (· = n)) (S := fun _ => True) ⟨trivial, fun m _ => ?_⟩ (fun m hm => by rintro rfl; exact hk hm) s
  rw [get_inlRules]
  cases R.get m with
  | none => trivial
  | some e => exact unfolds_inl (D := (· = n)) (fun _ => trivial) rfl hb e

/-- `main = sum;  sum = digit ('+' digit)*;  digit = [0-9]` -/
def exSums : SetOfRules := ⟨[(c!"main", .ruleName c!"sum"),
  (c!"sum", .and [.ruleName c!"digit", .rep (.and [.simple (.literal c!"+"), .ruleName c!"digit"]) 0 none]),
  (c!"digit", .simple (.mtch [] [('0', '9')]))]⟩

/-- `main = sum;  sum = [0-9] tail*;  tail = '+' [0-9]`: one rule is inlined, another is extracted -/
def exSums' : SetOfRules := ⟨[(c!"main", .ruleName c!"sum"),
  (c!"sum", .and [.simple (.mtch [] [('0', '9')]), .rep (.ruleName c!"tail") 0 none]),
  (c!"tail", .and [.simple (.literal c!"+"), .simple (.mtch [] [('0', '9')])])]⟩

theorem exSums_unfolds : UnfoldsRules exSums exSums' (fun n => n = c!"digit" ∨ n = c!"tail")
    (fun n => n = c!"main" ∨ n = c!"sum") := by
  refine ⟨.inl rfl, fun n hn => ?_⟩
  have digit : Unfolds exSums.get exSums'.get (fun n => n = c!"digit" ∨ n = c!"tail")
      (fun n => n = c!"main" ∨ n = c!"sum") (.ruleName c!"digit") (.simple (.mtch [] [('0', '9')])) :=
    .left (.inl rfl) rfl (.simple _)
  rcases hn with rfl | rfl
  · exact .call (.inr rfl)
  · exact .and_cons digit (.and_cons (.rep 0 none (.right (.inr rfl) rfl
      (.and_cons (.simple _) (.and_cons digit .and_nil)))) .and_nil)

/-- The trees agree on the rules that were left alone. -/
example (s : Str) : SameBut [c!"main", c!"sum"] (parse s exSums) (parse s exSums') :=
  C55_inlining exSums_unfolds (by decide) s

example : parse c!"1+2" exSums = .ok (.rule c!"main" [.rule c!"sum" [.rule c!"digit" [.val c!"1"], .val c!"+",
    .rule c!"digit" [.val c!"2"]]]) ∧
    parse c!"1+2" exSums' = .ok (.rule c!"main" [.rule c!"sum" [.val c!"1", .rule c!"tail" [.val c!"+", .val c!"2"]]]) :=
  ⟨parse_of_fuel (f := 20) (by decide +kernel) (by simp), parse_of_fuel (f := 20) (by decide +kernel) (by simp)⟩

/-- **C55**: the condition on `keep` is needed: the nodes of an inlined rule are gone. -/
theorem C55_keep_needed : ∃ s, ¬ SameBut [c!"digit"] (parse s exSums) (parse s exSums') := by
  refine ⟨c!"1", ?_⟩
  rw [show parse c!"1" exSums = .ok (.rule c!"main" [.rule c!"sum" [.rule c!"digit" [.val c!"1"]]]) from
      parse_of_fuel (f := 20) (by decide +kernel) (by simp),
    show parse c!"1" exSums' = .ok (.rule c!"main" [.rule c!"sum" [.val c!"1"]]) from
      parse_of_fuel (f := 20) (by decide +kernel) (by simp)]
  simp only [SameBut]
  decide

/-- **C55**: `parse_debug` shows the difference, in the trace of the rules. -/
theorem C55_debug_differs : ∃ s e e', parseDebug s exSums = .err e ∧ parseDebug s exSums' = .err e' ∧
    e.parsingRules ≠ e'.parsingRules := by
  refine ⟨c!"x", ⟨⟨1, 0, 1, 0⟩, .mtch [] [('0', '9')], c!"x", [], [c!"r:main", c!"r:sum", c!"r:digit"], .normal⟩,
    ⟨⟨1, 0, 1, 0⟩, .mtch [] [('0', '9')], c!"x", [], [c!"r:main", c!"r:sum"], .normal⟩, ?_, ?_, by decide⟩
  · exact parseDebug_of_fuel (f := 20) (by decide +kernel) (by simp)
  · exact parseDebug_of_fuel (f := 20) (by decide +kernel) (by simp)

end DP
