/-
C70: rewritings of a grammar that keep the trees up to `compact`.
-/
import Verif.Proofs.Glue
import Verif.Props.Regroup
import Verif.Props.Alike
import Verif.Props.AstLaws
import Verif.Props.Inline

namespace DP
open Spec

theorem glue_ok {R R' : SetOfRules} (h : GlueRules R R') {s : Str} {t : Node} (hp : parse s R = .ok t) :
    ∃ t', parse s R' = .ok t' ∧ t.compact = t'.compact := by
  have ha := C17_ok_only_on_ascii hp
  have hm := (C02_parse_ok_iff_peg_any_bounds R t ha).1 hp
  obtain ⟨o', h1, h2⟩ := glueRules_peg (glueRules_symm h) ha hm
  cases h2 with
  | @ok _ _ ns' j =>
    cases hm with
    | call_ok hg hb =>
      cases h1 with
      | call_ok hg' hb' =>
        refine ⟨_, (C02_parse_ok_iff_peg_any_bounds R' _ ha).2 (.call_ok hg' hb'), ?_⟩
        simp only [Joins, Node.compactNodes, Node.concatNodes, List.nil_append, List.cons.injEq, Node.rule.injEq, true_and,
          and_true] at j
        simp only [Node.compact, j]

/-- **C70**: cutting literals in pieces, or joining them, keeps the accepted texts, and their trees up to `compact`; the laws of C50
may be used as well. -/
theorem C70_compact_trees {R R' : SetOfRules} (h : GlueRules R R') (s : Str) :
    ((∃ t, parse s R = .ok t) ↔ ∃ t, parse s R' = .ok t) ∧
    ∀ t t', parse s R = .ok t → parse s R' = .ok t' → t.compact = t'.compact := by
  refine ⟨⟨fun ⟨t, ht⟩ => ?_, fun ⟨t, ht⟩ => ?_⟩, fun t t' ht ht' => ?_⟩
  · obtain ⟨t', h1, _⟩ := glue_ok h ht; exact ⟨t', h1⟩
  · obtain ⟨t', h1, _⟩ := glue_ok (glueRules_symm h) ht; exact ⟨t', h1⟩
  · obtain ⟨u, h1, h2⟩ := glue_ok h ht
    rw [ht'] at h1
    cases h1
    exact h2

theorem glue_diverge {R R' : SetOfRules} (h : GlueRules R R') {s : Str} (ha : Ascii s) (hd : parse s R = .diverge) :
    parse s R' = .diverge := by
  rw [parse_diverges_iff ha] at hd ⊢
  intro o hp
  obtain ⟨o', h1, _⟩ := glueRules_peg h ha hp
  exact hd o' h1

theorem glue_critical {R R' : SetOfRules} (h : GlueRules R R') {s : Str} (ha : Ascii s) {e e' : Error}
    (he : parse s R = .err e) (he' : parse s R' = .err e') (hc : e.priority = .critical) : e = e' := by
  obtain ⟨f, h1, h2⟩ := ((C47_parse_err_iff s R e).1 he).2
  obtain ⟨f', h1', h2'⟩ := ((C47_parse_err_iff s R' e').1 he').2
  have hf := rejects_critical h1 (by rw [← h2.priority]; exact hc)
  have hB : Peg (denotes R') (.ruleName c!"main") s (.crit f.why f.rest) := by
    obtain ⟨_, g, n⟩ := glueRules_peg (glueRules_symm h) ha hf
    cases n
    exact g
  have hp' : f'.prio = .critical := by
    cases h1' with
    | failed h3 =>
      have := peg_det hB (reports_peg h3)
      unfold Report.outcome at this
      cases hq : f'.prio with
      | critical => rfl
      | normal => simp [hq] at this
    | kept h3 => have := peg_det hB (reports_peg h3); cases this
    | unread h3 => have := peg_det hB (reports_peg h3); cases this
  have := peg_det hB (rejects_critical h1' hp')
  simp only [Outcome.crit.injEq] at this
  have t1 : f.rules = [] := by rw [← h2.parsingRules]; exact C19_parse_has_no_trace he
  have t2 : f'.rules = [] := by rw [← h2'.parsingRules]; exact C19_parse_has_no_trace he'
  have hff : f = f' := by
    have q1 : f.prio = .critical := by rw [← h2.priority]; exact hc
    cases f; cases f'; simp_all
  subst hff
  exact describes_unique h2 h2'

/-- **C70**: on ASCII texts the whole answers are the same up to `compact` and up to which ordinary error is reported. -/
theorem C70_answers {R R' : SetOfRules} (h : GlueRules R R') {s : Str} (ha : Ascii s) : SameCompact (parse s R) (parse s R') := by
  have hk := C70_compact_trees h s
  cases h1 : parse s R with
  | panic => exact absurd h1 (C16_no_panic_on_ascii R ha)
  | diverge => rw [glue_diverge h ha h1]; trivial
  | ok t =>
    obtain ⟨t', h2, h3⟩ := glue_ok h h1
    rw [h2]
    exact h3
  | err e =>
    cases h2 : parse s R' with
    | panic => exact absurd h2 (C16_no_panic_on_ascii R' ha)
    | diverge => rw [glue_diverge (glueRules_symm h) ha h2] at h1; cases h1
    | ok t => obtain ⟨_, h3, _⟩ := glue_ok (glueRules_symm h) h2; rw [h3] at h1; cases h1
    | err e' =>
      rintro (hc | hc)
      · exact glue_critical h ha h1 h2 hc
      · exact (glue_critical (glueRules_symm h) ha h2 h1 hc).symm

/-- **C70**: whatever is done to the trees afterwards, if it ends with `compact` then the result is the same. -/
theorem C70_post_processing {R R' : SetOfRules} (h : GlueRules R R') {s : Str} {t t' : Node} (ht : parse s R = .ok t)
    (ht' : parse s R' = .ok t') (ops : List Op) :
    (ops.foldl (fun t o => o.apply t) t).compact = (ops.foldl (fun t o => o.apply t) t').compact := by
  have key : ∀ (ops : List Op) (t t' : Node), t.compact = t'.compact →
      (ops.foldl (fun t o => o.apply t) t).compact = (ops.foldl (fun t o => o.apply t) t').compact := by
    intro ops
    induction ops with
    | nil => exact fun _ _ h => h
    | cons o ops ih => intro t t' h; exact ih _ _ (by rw [← compact_op, h, compact_op])
  exact key ops t t' ((C70_compact_trees h s).2 t t' ht ht')

/-- **C70**: together with C55, rules may be inlined or extracted as well, if they are dissolved afterwards. -/
theorem C70_and_inlining {R R' R'' : SetOfRules} {D S : Str → Prop} (h : UnfoldsRules R R' D S) (h' : GlueRules R' R'')
    {keep : List Str} (hk : ∀ n ∈ keep, ¬ D n) {s : Str} {t : Node} (ht : parse s R = .ok t) :
    ∃ t', parse s R'' = .ok t' ∧ (t.passThrough keep).compact = (t'.passThrough keep).compact := by
  have h1 := C55_inlining h hk s
  rw [ht] at h1
  cases h2 : parse s R' with
  | ok u =>
    rw [h2] at h1
    obtain ⟨t', h3, h4⟩ := glue_ok h' h2
    refine ⟨t', h3, ?_⟩
    rw [show t.passThrough keep = u.passThrough keep from h1, ← C56_compact_pass_through, h4, C56_compact_pass_through]
  | err e => rw [h2] at h1; exact h1.elim
  | panic => rw [h2] at h1; exact h1.elim
  | diverge => rw [h2] at h1; exact h1.elim

/-- `main = 'abc' / 'abd'` and `main = 'ab' ('c' / 'd')` -/
def exWords : SetOfRules := only (.or [.simple (.literal c!"abc"), .simple (.literal c!"abd")])
def exWordsCut : SetOfRules := only (.and [.simple (.literal c!"ab"), .or [.simple (.literal c!"c"), .simple (.literal c!"d")]])

theorem exWords_glue : GlueRules exWords exWordsCut := by
  intro n
  by_cases hn : n = c!"main"
  · subst hn
    show Glue _ _
    refine .trans (.or_at [] _ (.literal c!"ab" c!"c")) (.trans (.or_at [_] [] (.literal c!"ab" c!"d")) ?_)
    refine .trans (.alike (.same (.factor _ _ _))) (.alike (.same (.and_at [_] [] ?_)))
    exact .trans (.or_at [] _ (.and_single _)) (.or_at [_] [] (.and_single _))
  · have hb : (n == c!"main") = false := by simp [hn]
    simp [exWords, exWordsCut, only, List.lookup_cons, hb]

example : parse c!"abd" exWords = .ok (.rule c!"main" [.val c!"abd"]) ∧
    parse c!"abd" exWordsCut = .ok (.rule c!"main" [.val c!"ab", .val c!"d"]) :=
  ⟨parse_of_fuel (f := 20) (by decide +kernel) (by simp), parse_of_fuel (f := 20) (by decide +kernel) (by simp)⟩

example (t t') (h : parse c!"abd" exWords = .ok t) (h' : parse c!"abd" exWordsCut = .ok t') : t.compact = t'.compact :=
  (C70_compact_trees exWords_glue _).2 t t' h h'

/-- **C70**: `compact` is needed, and the ordinary errors do differ. -/
theorem C70_limits : (∃ s t t', parse s exWords = .ok t ∧ parse s exWordsCut = .ok t' ∧ t ≠ t') ∧
    ∃ s e e', parse s exWords = .err e ∧ parse s exWordsCut = .err e' ∧ e ≠ e' :=
  ⟨⟨c!"abd", .rule c!"main" [.val c!"abd"], .rule c!"main" [.val c!"ab", .val c!"d"],
    parse_of_fuel (f := 20) (by decide +kernel) (by simp), parse_of_fuel (f := 20) (by decide +kernel) (by simp), by decide⟩,
   ⟨c!"abx", ⟨⟨3, 0, 3, 0⟩, .literal c!"abd", c!"abx", [], [], .normal⟩, ⟨⟨3, 0, 3, 0⟩, .literal c!"d", c!"abx", [], [], .normal⟩,
    parse_of_fuel (f := 20) (by decide +kernel) (by simp), parse_of_fuel (f := 20) (by decide +kernel) (by simp), by decide⟩⟩

end DP
