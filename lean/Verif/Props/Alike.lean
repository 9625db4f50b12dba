/-
C50: rewritings of a grammar that keep the trees.
-/
import Verif.Proofs.Alike
import Verif.Proofs.Decide
import Verif.Props.Report
import Verif.Props.Errors
import Verif.Props.Termination

namespace DP
open Spec

/-- **C50**: rewriting expressions by the laws of `Alike` keeps the set of accepted texts and their trees. -/
theorem C50_same_trees {R R' : SetOfRules} (h : AlikeRules R R') (s : Str) (t : Node) :
    (parse s R = .ok t ↔ parse s R' = .ok t) ∧ (parseDebug s R = .ok t ↔ parseDebug s R' = .ok t) := by
  have : parse s R = .ok t ↔ parse s R' = .ok t := by
    by_cases ha : Ascii s
    · rw [C02_parse_ok_iff_peg_any_bounds R t ha, C02_parse_ok_iff_peg_any_bounds R' t ha,
        alikeRules_peg_iff h ha]
    · exact ⟨fun hp => absurd (C17_ok_only_on_ascii hp) ha, fun hp => absurd (C17_ok_only_on_ascii hp) ha⟩
  exact ⟨this, by rw [C18_ok_iff, C18_ok_iff, this]⟩

theorem parse_diverges_iff {R : SetOfRules} {s : Str} (ha : Ascii s) :
    parse s R = .diverge ↔ ∀ o, ¬ Peg (denotes R) (.ruleName c!"main") s o := by
  refine ⟨fun h o hp => ?_, diverges_of_no_outcome ha⟩
  rcases main_complete hp with hc | hc
  · rw [parse_eq, hc] at h; cases h
  · cases hx : runRule R (Status.init s) c!"main" with
    | diverge => rw [hx] at hc; cases o <;> obtain ⟨_, h1, _⟩ := hc <;> cases h1
    | err e => rw [parse_eq, hx] at h; cases h
    | panic => rw [parse_eq, hx] at h; cases h
    | ok x =>
      rw [parse_eq, hx] at h
      simp only at h
      split at h
      · cases h
      · cases hp : x.1.potentialError with
        | some e => rw [hp] at h; cases h
        | none =>
          rw [hp] at h
          simp only [raise] at h
          cases hf : fromStatus x.1 .notConsumed .normal <;> rw [hf] at h <;> cases h

/-- **C50**: on ASCII texts it also keeps which texts are refused and on which texts there is no answer. -/
theorem C50_same_verdicts {R R' : SetOfRules} (h : AlikeRules R R') {s : Str} (ha : Ascii s) :
    ((∃ e, parse s R = .err e) ↔ ∃ e, parse s R' = .err e) ∧
    (parse s R = .diverge ↔ parse s R' = .diverge) := by
  have hd : parse s R = .diverge ↔ parse s R' = .diverge := by
    rw [parse_diverges_iff ha, parse_diverges_iff ha]
    exact ⟨fun hn o hp => hn o ((alikeRules_peg_iff h ha).2 hp), fun hn o hp => hn o ((alikeRules_peg_iff h ha).1 hp)⟩
  refine ⟨?_, hd⟩
  have key : ∀ {A B : SetOfRules}, (∀ t, parse s A = .ok t ↔ parse s B = .ok t) →
      (parse s A = .diverge ↔ parse s B = .diverge) → (∃ e, parse s A = .err e) → ∃ e, parse s B = .err e := by
    rintro A B h1 h2 ⟨e, he⟩
    cases hx : parse s B with
    | ok t => rw [(h1 t).2 hx] at he; cases he
    | err e => exact ⟨e, rfl⟩
    | panic => exact absurd hx (C16_no_panic_on_ascii B ha)
    | diverge => rw [h2.2 hx] at he; cases he
  exact ⟨key (fun t => (C50_same_trees h s t).1) hd, key (fun t => (C50_same_trees h s t).1.symm) hd.symm⟩

theorem rejects_critical {G tr s f} (h : Rejects G tr s f) (hc : f.prio = .critical) :
    Peg G (.ruleName c!"main") s (.crit f.why f.rest) := by
  cases h with
  | failed h => have := reports_peg h; simpa [Report.outcome, hc] using this
  | kept h _ hk =>
    obtain ⟨_, k⟩ := kept_of_reports h rfl
    rcases k with k | ⟨f', _, _, _, _, k3, k4, _⟩
    · rw [hk] at k; cases k
    · rw [hk] at k3; cases k3; rw [k4] at hc; cases hc
  | unread => cases hc

/-- **C50**: on ASCII texts the errors that say something definite (`error(...)`, a missing rule) are kept, with
all their fields. -/
theorem C50_same_critical_errors {R R' : SetOfRules} (h : AlikeRules R R') {s : Str} (ha : Ascii s) {e : Error}
    (hc : e.priority = .critical) : parse s R = .err e ↔ parse s R' = .err e := by
  have key : ∀ {A B : SetOfRules}, AlikeRules A B → parse s A = .err e → parse s B = .err e := by
    intro A B h he
    obtain ⟨e', he'⟩ := (C50_same_verdicts h ha).1.1 ⟨e, he⟩
    obtain ⟨f, h1, h2⟩ := ((C47_parse_err_iff s A e).1 he).2
    obtain ⟨f', h1', h2'⟩ := ((C47_parse_err_iff s B e').1 he').2
    have hf := rejects_critical h1 (by rw [← h2.priority]; exact hc)
    have hB := (alikeRules_peg_iff h ha).1 hf
    have hp' : f'.prio = .critical := by
      cases h1' with
      | failed h3 =>
        have := peg_det hB (reports_peg h3)
        unfold Report.outcome at this
        cases hq : f'.prio with
        | critical => rfl
        | normal => simp [hq] at this
      | kept h3 => have := peg_det hB (reports_peg h3); cases this
      | unread h3 => have := peg_det hB (reports_peg h3); cases this
    have := peg_det hB (rejects_critical h1' hp')
    simp only [Outcome.crit.injEq] at this
    have t1 : f.rules = [] := by rw [← h2.parsingRules]; exact C19_parse_has_no_trace he
    have t2 : f'.rules = [] := by rw [← h2'.parsingRules]; exact C19_parse_has_no_trace he'
    have hff : f = f' := by
      have q1 : f.prio = .critical := by rw [← h2.priority]; exact hc
      cases f; cases f'; simp_all
    subst hff
    rw [he', describes_unique h2' h2]
  exact ⟨key h, key (alikeRules_symm h)⟩

/-- **C50** for the rule of one name. -/
theorem C50_same_rule {R : SetOfRules} {n : Str} {e e' : Expr} (h : Alike e e') (s : Str) (t : Node) :
    parse s (R.add n e) = .ok t ↔ parse s (R.add n e') = .ok t := by
  refine (C50_same_trees (fun m => ?_) s t).1
  simp only [SetOfRules.add, SetOfRules.insertEntry]
  by_cases hm : m = n
  · subst hm; simp [h]
  · have hb : (m == n) = false := by simp [hm]
    simp only [List.lookup_cons, hb]
    cases (List.filter (fun x => x.1 != n) R.entries).lookup m with
    | none => trivial
    | some e => exact .same (.refl e)

/-- `main = [ab]? 'x' error("no")` and `main = ('a' / [b] / ) 'x' error("no")`, `!!!'x'` for `!'x'` -/
def exClass : SetOfRules := ⟨[(c!"main", .and [.rep (.simple (.mtch ['a', 'b'] [])) 0 (some 1),
  .not (.simple (.literal c!"x")), .or [.simple .eof, .simple (.error c!"no")]])]⟩
def exChoice : SetOfRules := ⟨[(c!"main", .and [.or [.or [.simple (.literal c!"a"), .simple (.mtch ['b'] [])], .and []],
  .not (.not (.not (.simple (.literal c!"x")))), .or [.simple .eof, .simple (.error c!"no")]])]⟩

theorem exClass_alike : AlikeRules exClass exChoice := by
  intro n
  by_cases hn : n = c!"main"
  · subst hn
    show Alike _ _
    refine .trans (.and_at [] _ (.trans (.rep _ _ (.class_char _ _ _)) (.optional _))) ?_
    exact .and_at [_] _ (.symm (.not_not_not _))
  · have hb : (n == c!"main") = false := by simp [hn]
    simp [exClass, exChoice, List.lookup_cons, hb]

example : parse c!"b" exChoice = .ok (.rule c!"main" [.val c!"b", .val c!"EOF"]) :=
  ((C50_same_trees exClass_alike _ _).1).1 (parse_of_fuel (f := 20) (by decide +kernel) (by simp))
example : parse c!"bz" exChoice = .err ⟨⟨1, 0, 1, 0⟩, .custom c!"no", c!"b", c!"z", [], .critical⟩ :=
  (C50_same_critical_errors exClass_alike (by decide) rfl).1 (parse_of_fuel (f := 20) (by decide +kernel) (by simp))

/-- The ordinary errors are not kept: `C49_optional_is_not_a_choice` is such a pair. -/
example : Alike (.rep (.simple (.literal c!"a")) 0 (some 1)) (.or [.simple (.literal c!"a"), .and []]) := .optional _

end DP
