/-
C54: the names of the rules matter only as names.
-/
import Verif.Proofs.Rename
import Verif.Proofs.Decide

namespace DP
open Spec

theorem rename_answers {R R' : SetOfRules} {σ : Str → Str} (hm : σ c!"main" = c!"main")
    (h : ∀ n, Reach (grammar R) n → R'.get (σ n) = (R.get n).map (renExpr σ)) (st : Status) :
    runRule R' (renStatus σ st) c!"main" = renRule σ (runRule R st c!"main") := by
  refine limit_congr (K := renRule σ) (chain_rule R st c!"main") rfl (fun f => ?_)
  have := (rename_runs (N := Reach (grammar R)) (fun n hn e he m hr => .step hn he hr) h f).1 st c!"main" .main
  rw [hm] at this
  exact this

/-- **C54**: let the rules that `main` leads to have the names that `σ` gives them, in the bodies too. The answer of
`parse` and of `parse_debug` is what it was, with the new names in place of the old ones: in the tree, in the
description of a missing rule and in the trace of the rules. Nothing else of the answer changes. The same name may be
given to two rules, provided that their bodies become equal. -/
theorem C54_renaming {R R' : SetOfRules} {σ : Str → Str} (hm : σ c!"main" = c!"main")
    (h : ∀ n, Reach (grammar R) n → R'.get (σ n) = (R.get n).map (renExpr σ)) (s : Str) :
    parse s R' = renAnswer σ (parse s R) ∧ parseDebug s R' = renAnswer σ (parseDebug s R) := by
  constructor
  · rw [parse_eq, parse_eq]
    have := rename_answers hm h (Status.init s)
    rw [show renStatus σ (Status.init s) = Status.init s from rfl] at this
    rw [this]
    rcases runRule R (Status.init s) c!"main" with ⟨st, t⟩ | e | _ | _
    · simp only [renRule]
      by_cases hp : st.pos.n = byteLen s
      · simp [renStatus, hp, renAnswer]
      · simp only [renStatus, hp, if_false]
        cases hpe : st.potentialError with
        | some e => simp [renAnswer]
        | none =>
          simp only [Option.map_none]
          have := ren_fromStatus (σ := σ) st .notConsumed .normal
          simp only [renStatus, hpe, renDescr, Option.map_none] at this
          unfold raise
          rw [this]
          cases fromStatus st .notConsumed .normal <;> rfl
    all_goals rfl
  · rw [parseDebug_eq, parseDebug_eq]
    have := rename_answers hm h (Status.initDebug s true)
    rw [show renStatus σ (Status.initDebug s true) = Status.initDebug s true from rfl] at this
    rw [this]
    rcases runRule R (Status.initDebug s true) c!"main" with ⟨st, t⟩ | e | _ | _
    · simp only [renRule]
      by_cases hp : st.pos.n = byteLen s
      · simp [renStatus, hp, renAnswer]
      · simp only [renStatus, hp, if_false]
        cases hpe : st.potentialError with
        | some e => simp [renAnswer]
        | none =>
          simp only [Option.map_none]
          have := ren_fromStatus (σ := σ) st .notConsumed .normal
          simp only [renStatus, hpe, renDescr, Option.map_none] at this
          unfold raise
          rw [this]
          cases fromStatus st .notConsumed .normal <;> rfl
    all_goals rfl

theorem get_renRules {σ : Str → Str} (hi : ∀ a b, σ a = σ b → a = b) (R : SetOfRules) (n : Str) :
    (renRules σ R).get (σ n) = (R.get n).map (renExpr σ) := by
  obtain ⟨es⟩ := R
  simp only [renRules, SetOfRules.get]
  induction es with
  | nil => rfl
  | cons x xs ih =>
    obtain ⟨m, e⟩ := x
    simp only [List.map_cons, List.lookup_cons]
    by_cases hm : n = m
    · subst hm; simp
    · have h1 : (n == m) = false := by simp [hm]
      have h2 : (σ n == σ m) = false := by
        simp only [beq_eq_false_iff_ne, ne_eq]
        exact fun h => hm (hi _ _ h)
      simp only [h1, h2]
      exact ih

/-- **C54**, for the renaming of all rules of a set: different rules get different names and `main` keeps its name. -/
theorem C54_renaming_all {σ : Str → Str} (hi : ∀ a b, σ a = σ b → a = b) (hm : σ c!"main" = c!"main") (s : Str)
    (R : SetOfRules) :
    parse s (renRules σ R) = renAnswer σ (parse s R) ∧ parseDebug s (renRules σ R) = renAnswer σ (parseDebug s R) :=
  C54_renaming hm (fun n _ => get_renRules hi R n) s

mutual
theorem renNode_inj {σ : Str → Str} (hi : ∀ a b, σ a = σ b → a = b) : ∀ t u, renNode σ t = renNode σ u → t = u
  | .val _, .val _, h => by simpa [renNode] using h
  | .eof, .eof, _ => rfl
  | .rule n a, .rule m b, h => by
    simp only [renNode, Node.rule.injEq] at h
    rw [hi _ _ h.1, renNodes_inj hi a b h.2]
  | .val _, .eof, h => by simp [renNode] at h
  | .val _, .rule _ _, h => by simp [renNode] at h
  | .eof, .val _, h => by simp [renNode] at h
  | .eof, .rule _ _, h => by simp [renNode] at h
  | .rule _ _, .val _, h => by simp [renNode] at h
  | .rule _ _, .eof, h => by simp [renNode] at h
theorem renNodes_inj {σ : Str → Str} (hi : ∀ a b, σ a = σ b → a = b) : ∀ a b, renNodes σ a = renNodes σ b → a = b
  | [], [], _ => rfl
  | t :: ts, u :: us, h => by
    simp only [renNodes, List.cons.injEq] at h
    rw [renNode_inj hi t u h.1, renNodes_inj hi ts us h.2]
  | [], _ :: _, h => by simp [renNodes] at h
  | _ :: _, [], h => by simp [renNodes] at h
end

/-- **C54**: nothing is lost, the old tree is determined by the new one. -/
theorem C54_tree_back {σ : Str → Str} (hi : ∀ a b, σ a = σ b → a = b) (hm : σ c!"main" = c!"main") {s : Str}
    {R : SetOfRules} {t : Node} : parse s (renRules σ R) = .ok (renNode σ t) ↔ parse s R = .ok t := by
  rw [(C54_renaming_all hi hm s R).1]
  rcases parse s R with u | e | _ | _ <;> simp only [renAnswer, Out.ok.injEq, reduceCtorEq]
  exact ⟨renNode_inj hi u t, fun h => by rw [h]⟩

/-- `main = pair;  pair = a b;  a = 'x';  b = 'x'` -/
def exTwins : SetOfRules := ⟨[(c!"main", .ruleName c!"pair"),
  (c!"pair", .and [.ruleName c!"a", .ruleName c!"b"]),
  (c!"a", .simple (.literal c!"x")), (c!"b", .simple (.literal c!"x"))]⟩

/-- `main = pair;  pair = a a;  a = 'x'` -/
def exMerged : SetOfRules := ⟨[(c!"main", .ruleName c!"pair"),
  (c!"pair", .and [.ruleName c!"a", .ruleName c!"a"]),
  (c!"a", .simple (.literal c!"x"))]⟩

/-- Two rules with the same body become one. -/
example (s : Str) : parse s exMerged = renAnswer (fun n => if n = c!"b" then c!"a" else n) (parse s exTwins) := by
  refine (C54_renaming (by decide) (fun n hn => ?_) s).1
  have : n = c!"main" ∨ n = c!"pair" ∨ n = c!"a" ∨ n = c!"b" := by
    induction hn with
    | main => simp
    | @step n e m _ hg hr ih =>
      rcases ih with rfl | rfl | rfl | rfl
      · obtain rfl : Expr.ruleName c!"pair" = e := Option.some.inj hg
        cases hr; simp
      · obtain rfl : Expr.and [.ruleName c!"a", .ruleName c!"b"] = e := Option.some.inj hg
        cases hr with
        | and hm hr =>
          simp only [List.mem_cons, List.not_mem_nil, or_false] at hm
          rcases hm with rfl | rfl <;> cases hr <;> simp
      · obtain rfl : Expr.simple (.literal c!"x") = e := Option.some.inj hg
        cases hr
      · obtain rfl : Expr.simple (.literal c!"x") = e := Option.some.inj hg
        cases hr
  rcases this with rfl | rfl | rfl | rfl <;> rfl

example : parse c!"xx" exTwins = .ok (.rule c!"main" [.rule c!"pair" [.rule c!"a" [.val c!"x"], .rule c!"b" [.val c!"x"]]]) :=
  parse_of_fuel (f := 20) (by decide +kernel) (by simp)

example : parse c!"xx" exMerged = .ok (.rule c!"main" [.rule c!"pair" [.rule c!"a" [.val c!"x"], .rule c!"a" [.val c!"x"]]]) :=
  parse_of_fuel (f := 20) (by decide +kernel) (by simp)

/-- **C54**: `main` is special, a set of rules without it parses nothing. -/
theorem C54_main_is_special : ∃ σ : Str → Str, (∀ a b, σ a = σ b → a = b) ∧ ∃ s R t e,
    parse s R = .ok t ∧ parse s (renRules σ R) = .err e ∧ e.descr = .missingRule c!"main" := by
  refine ⟨fun n => 'x' :: n, fun a b h => by simpa using h, c!"xx", exTwins, .rule c!"main" [.rule c!"pair" [.rule c!"a" [.val c!"x"], .rule c!"b" [.val c!"x"]]],
    ⟨⟨0, 0, 0, 0⟩, .missingRule c!"main", [], c!"xx", [], .critical⟩,
    parse_of_fuel (f := 20) (by decide +kernel) (by simp), parse_of_fuel (f := 20) (by decide +kernel) (by simp), ?_⟩
  rfl

/-- **C54**: a name must not be given to two rules with different bodies. -/
theorem C54_clash : ∃ σ : Str → Str, σ c!"main" = c!"main" ∧ ∃ s R t e,
    parse s R = .ok t ∧ parse s (renRules σ R) = .err e := by
  refine ⟨fun n => if n = c!"b" then c!"a" else n, by decide, c!"xy", ⟨[(c!"main", .and [.ruleName c!"a", .ruleName c!"b"]),
    (c!"a", .simple (.literal c!"x")), (c!"b", .simple (.literal c!"y"))]⟩,
    .rule c!"main" [.rule c!"a" [.val c!"x"], .rule c!"b" [.val c!"y"]], ⟨⟨2, 0, 2, 0⟩, .literal c!"x", c!"xy", [], [], .normal⟩,
    parse_of_fuel (f := 20) (by decide +kernel) (by simp), parse_of_fuel (f := 20) (by decide +kernel) (by simp)⟩

end DP
