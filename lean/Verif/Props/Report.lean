/-
C47, C21: which error is reported.
-/
import Verif.Proofs.Report
import Verif.Props.Core

namespace DP
open Spec

theorem sim_init (s : Str) : Sim s false .blank (Status.init s) := ⟨inv_init s, rfl, rfl, trivial⟩
theorem sim_initDebug (s : Str) : Sim s true .blank (Status.initDebug s true) :=
  ⟨inv_initDebug s true, rfl, rfl, trivial⟩

/-- the end of `parse_with_debug` -/
def finish (s : Str) : Out Error (Status × Node) → Out Error Node
  | .ok (st, ast) =>
    if st.pos.n = byteLen s then .ok ast
    else match st.potentialError with
      | some e => .err e
      | none => raise st .notConsumed .normal
  | .err e => .err e
  | .panic => .panic
  | .diverge => .diverge

theorem parse_finish (s R) : parse s R = finish s (runRule R (Status.init s) c!"main") := parse_eq s R
theorem parseDebug_finish (s R) : parseDebug s R = finish s (runRule R (Status.initDebug s true) c!"main") :=
  parseDebug_eq s R

theorem reports_call_node {G tr n j s r ns j'} (h : Reports G tr (.ruleName n) j s (.ok r ns j')) :
    ∃ t, ns = [t] := by
  cases h with | call_ok _ _ => exact ⟨_, rfl⟩

theorem complete_iff {s : Str} {st : Status} (hI : Inv s st) :
    st.pos.n ≠ byteLen s ↔ Incomplete s st.itParsing := by
  unfold Incomplete
  constructor
  · intro hn
    by_cases ha : Ascii s
    · exact Or.inl (fun hq => hn ((end_inv hI ha).2 hq))
    · exact Or.inr ha
  · intro h hn
    have := inv_end hI hn
    rcases h with h | h
    · exact h this.1
    · exact h this.2

/-- What the API returns, and what is specified, coincide. -/
theorem finish_sound {s : Str} {R : SetOfRules} {tr st0} (h0 : Sim s tr .blank st0)
    (hi : st0.itParsing = s) :
    match finish s (runRule R st0 c!"main") with
    | .ok t => Accepts (denotes R) tr s t
    | .err e => ∃ f, Rejects (denotes R) tr s f ∧ Describes s f e
    | .panic => Panics (denotes R) tr s
    | .diverge => True := by
  have h := runRule_report (R := R) (n := c!"main") h0
  rw [hi] at h
  cases hx : runRule R st0 c!"main" with
  | ok x =>
    obtain ⟨st, t⟩ := x
    rw [hx] at h
    obtain ⟨j, hS, hr⟩ := h
    simp only at hS hr
    simp only [finish]
    by_cases hn : st.pos.n = byteLen s
    · rw [if_pos hn]
      obtain ⟨h1, h2⟩ := inv_end hS.toInv hn
      rw [h1] at hr
      exact ⟨h2, j, hr⟩
    · rw [if_neg hn]
      have hq := (complete_iff hS.toInv).1 hn
      have hk := hS.kept
      cases hp : st.potentialError with
      | some e =>
        cases hj : j.kept with
        | none => rw [hp, hj] at hk; exact hk.elim
        | some f => rw [hp, hj] at hk; exact ⟨f, .kept hr hq hj, hk⟩
      | none =>
        cases hj : j.kept with
        | some _ => rw [hp, hj] at hk; exact hk.elim
        | none =>
          simp only
          rcases describes_raise (α := Node) (d := .notConsumed) (p := .normal) hS.toInv hS.walking with
            ⟨e, h1, h2⟩ | ⟨h1, h2⟩
          · rw [h1]
            exact ⟨_, .unread hr hq hj, h2⟩
          · rw [h1]
            exact .unread hr hq hj h2
  | err e =>
    rw [hx] at h
    obtain ⟨f, h1, h2⟩ := h
    exact ⟨f, .failed h2, h1⟩
  | panic => rw [hx] at h; exact .matching h
  | diverge => trivial

/-- What is specified is unique. -/
theorem accepts_det {G tr s t t'} (h : Accepts G tr s t) (h' : Accepts G tr s t') : t = t' := by
  obtain ⟨_, j, h⟩ := h
  obtain ⟨_, j', h'⟩ := h'
  have := reports_det h h'
  simp only [Report.ok.injEq, List.cons.injEq, and_true, true_and] at this
  exact this.1

theorem rejects_det {G tr s f f'} (h : Rejects G tr s f) (h' : Rejects G tr s f') : f = f' := by
  cases h with
  | failed h1 =>
    cases h' with
    | failed h2 => have := reports_det h1 h2; cases this; rfl
    | kept h2 => have := reports_det h1 h2; cases this
    | unread h2 => have := reports_det h1 h2; cases this
  | kept h1 _ hk =>
    cases h' with
    | failed h2 => have := reports_det h1 h2; cases this
    | kept h2 _ hk' => have := reports_det h1 h2; cases this; rw [hk] at hk'; cases hk'; rfl
    | unread h2 _ hk' => have := reports_det h1 h2; cases this; rw [hk] at hk'; cases hk'
  | unread h1 _ hk =>
    cases h' with
    | failed h2 => have := reports_det h1 h2; cases this
    | kept h2 _ hk' => have := reports_det h1 h2; cases this; rw [hk] at hk'; cases hk'
    | unread h2 => have := reports_det h1 h2; cases this; rfl

theorem accepts_rejects {G tr s t f} (h : Accepts G tr s t) (h' : Rejects G tr s f) : False := by
  obtain ⟨ha, j, h⟩ := h
  cases h' with
  | failed h2 => have := reports_det h h2; cases this
  | kept h2 hq => have := reports_det h h2; cases this; exact hq.elim (· rfl) (· ha)
  | unread h2 hq => have := reports_det h h2; cases this; exact hq.elim (· rfl) (· ha)

theorem panics_ascii {G tr s} (ha : Ascii s) : ¬ Panics G tr s := by
  intro h
  cases h with
  | matching h => exact crash_ascii ha (List.suffix_refl _) h
  | unread h _ _ hb =>
    obtain ⟨p, hp⟩ := reports_suffix h
    exact not_blind ha hp.symm hb

/-- something is specified only if the parser returns -/
theorem finish_diverge {s : Str} {R : SetOfRules} {tr st0 o} (h0 : Sim s tr .blank st0)
    (hi : st0.itParsing = s) (h : Reports (denotes R) tr (.ruleName c!"main") .blank s o) :
    finish s (runRule R st0 c!"main") ≠ .diverge := by
  have h1 := runExpr_of_reports (R := R) (e := .ruleName c!"main") h0 (o := o) (by
    rw [hi, effective]; exact h)
  rw [runExpr_ruleName] at h1
  intro hd
  cases hx : runRule R st0 c!"main" with
  | ok x =>
    rw [hx] at hd
    simp only [finish] at hd
    split at hd
    · cases hd
    · split at hd
      · cases hd
      · exact raise_diverge hd
  | err e => rw [hx] at hd; cases hd
  | panic => rw [hx] at hd; cases hd
  | diverge =>
    rw [hx] at h1
    rcases h1 with h1 | h1
    · cases h1
    · cases o with
      | ok r ns j => obtain ⟨_, h2, _⟩ := h1; cases h2
      | bad f => obtain ⟨_, h2, _⟩ := h1; cases h2

theorem finish_panic_iff {s : Str} {R : SetOfRules} {tr st0} (h0 : Sim s tr .blank st0)
    (hi : st0.itParsing = s) :
    finish s (runRule R st0 c!"main") = .panic ↔ Panics (denotes R) tr s := by
  constructor
  · intro h
    have := finish_sound (R := R) h0 hi
    rw [h] at this; exact this
  · intro h
    cases h with
    | matching h =>
      have := (runExpr_panic_iff (R := R) (e := .ruleName c!"main") h0).2 (by rw [hi, effective]; exact h)
      rw [runExpr_ruleName] at this
      cases hx : runRule R st0 c!"main" <;> rw [hx] at this <;> first | rfl | cases this
    | @unread q ns j h hq hk hb =>
      have h1 := runExpr_of_reports (R := R) (e := .ruleName c!"main") h0 (by rw [hi, effective]; exact h)
      rw [runExpr_ruleName] at h1
      cases hx : runRule R st0 c!"main" with
      | ok x =>
        obtain ⟨st, t⟩ := x
        rw [hx] at h1
        rcases h1 with h1 | ⟨st', h1, h2, h3⟩
        · cases h1
        · simp only [asExpr, Out.ok.injEq, Prod.mk.injEq] at h1
          obtain ⟨rfl, _⟩ := h1
          subst h2
          simp only [finish]
          rw [if_neg ((complete_iff h3.toInv).2 hq)]
          have hp := h3.kept
          rw [hk] at hp
          cases hpe : st.potentialError with
          | some e => rw [hpe] at hp; exact hp.elim
          | none => exact raise_blind h3.toInv hb
      | err e =>
        rw [hx] at h1
        rcases h1 with h1 | ⟨_, h1, _⟩ <;> cases h1
      | panic => rfl
      | diverge =>
        rw [hx] at h1
        rcases h1 with h1 | ⟨_, h1, _⟩ <;> cases h1

theorem finish_ok_iff {s : Str} {R : SetOfRules} {tr st0} (h0 : Sim s tr .blank st0)
    (hi : st0.itParsing = s) (t : Node) :
    finish s (runRule R st0 c!"main") = .ok t ↔ Accepts (denotes R) tr s t := by
  have h := finish_sound (R := R) h0 hi
  constructor
  · intro hx; rw [hx] at h; exact h
  · intro hacc
    have hd : finish s (runRule R st0 c!"main") ≠ .diverge := by
      obtain ⟨_, j, hr⟩ := hacc; exact finish_diverge h0 hi hr
    cases hx : finish s (runRule R st0 c!"main") with
    | ok t' => rw [hx] at h; rw [accepts_det h hacc]
    | err e => rw [hx] at h; obtain ⟨f, h1, _⟩ := h; exact (accepts_rejects hacc h1).elim
    | panic => rw [hx] at h; exact (panics_ascii hacc.1 h).elim
    | diverge => exact absurd hx hd

theorem finish_err_iff {s : Str} {R : SetOfRules} {tr st0} (h0 : Sim s tr .blank st0)
    (hi : st0.itParsing = s) (e : Error) :
    finish s (runRule R st0 c!"main") = .err e ↔
      ¬ Panics (denotes R) tr s ∧ ∃ f, Rejects (denotes R) tr s f ∧ Describes s f e := by
  have h := finish_sound (R := R) h0 hi
  constructor
  · intro hx
    rw [hx] at h
    refine ⟨fun hp => ?_, h⟩
    rw [(finish_panic_iff h0 hi).2 hp] at hx; cases hx
  · rintro ⟨hnp, f, hrej, hdesc⟩
    have hd : finish s (runRule R st0 c!"main") ≠ .diverge := by
      cases hrej with
      | failed hr => exact finish_diverge h0 hi hr
      | kept hr => exact finish_diverge h0 hi hr
      | unread hr => exact finish_diverge h0 hi hr
    cases hx : finish s (runRule R st0 c!"main") with
    | ok t' => rw [hx] at h; exact (accepts_rejects h hrej).elim
    | err e' =>
      rw [hx] at h
      obtain ⟨f', h1, h2⟩ := h
      rw [rejects_det h1 hrej] at h2
      rw [describes_unique h2 hdesc]
    | panic => rw [hx] at h; exact (hnp h).elim
    | diverge => exact absurd hx hd

/-! ### C47 -/

/-- **C47**: the errors of `parse` are exactly the ones specified, in all their fields. -/
theorem C47_parse_err_iff (s : Str) (R : SetOfRules) (e : Error) :
    parse s R = .err e ↔
      ¬ Panics (denotes R) false s ∧ ∃ f, Rejects (denotes R) false s f ∧ Describes s f e := by
  rw [parse_finish]; exact finish_err_iff (sim_init s) rfl e

/-- **C47**: the trees of `parse` are exactly the ones specified. -/
theorem C47_parse_ok_iff (s : Str) (R : SetOfRules) (t : Node) :
    parse s R = .ok t ↔ Accepts (denotes R) false s t := by
  rw [parse_finish]; exact finish_ok_iff (sim_init s) rfl t

/-- **C47**: `parse` panics exactly when a fault is raised at a point whose line cannot be shown. -/
theorem C47_parse_panic_iff (s : Str) (R : SetOfRules) :
    parse s R = .panic ↔ Panics (denotes R) false s := by
  rw [parse_finish]; exact finish_panic_iff (sim_init s) rfl

/-- **C47** for `parse_debug`, whose errors also carry the rules entered. -/
theorem C47_parse_debug_err_iff (s : Str) (R : SetOfRules) (e : Error) :
    parseDebug s R = .err e ↔
      ¬ Panics (denotes R) true s ∧ ∃ f, Rejects (denotes R) true s f ∧ Describes s f e := by
  rw [parseDebug_finish]; exact finish_err_iff (sim_initDebug s) rfl e

theorem C47_parse_debug_ok_iff (s : Str) (R : SetOfRules) (t : Node) :
    parseDebug s R = .ok t ↔ Accepts (denotes R) true s t := by
  rw [parseDebug_finish]; exact finish_ok_iff (sim_initDebug s) rfl t

theorem C47_parse_debug_panic_iff (s : Str) (R : SetOfRules) :
    parseDebug s R = .panic ↔ Panics (denotes R) true s := by
  rw [parseDebug_finish]; exact finish_panic_iff (sim_initDebug s) rfl

/-- **C47**: on ASCII text nothing panics, and `line_before` is the part of the line before the point. -/
theorem C47_ascii {s : Str} (ha : Ascii s) :
    (∀ G tr, ¬ Panics G tr s) ∧
    (∀ pre rest b, s = pre ++ rest → (Sees s rest b ↔ b = lastLine pre)) :=
  ⟨fun _ _ => panics_ascii ha, fun _ _ b hs => sees_ascii ha hs b⟩

/-- **C47**: the specification leaves no choice. -/
theorem C47_specification_is_functional {G : Str → Option Expr} {tr : Bool} {s : Str} :
    (∀ t t', Accepts G tr s t → Accepts G tr s t' → t = t') ∧
    (∀ f f', Rejects G tr s f → Rejects G tr s f' → f = f') ∧
    (∀ t f, Accepts G tr s t → Rejects G tr s f → False) ∧
    (∀ t, Accepts G tr s t → ¬ Panics G tr s) ∧
    (∀ f e e', Describes s f e → Describes s f e' → e = e') :=
  ⟨fun _ _ h h' => accepts_det h h', fun _ _ h h' => rejects_det h h',
   fun _ _ h h' => accepts_rejects h h', fun _ h => panics_ascii h.1, fun _ _ _ h h' => describes_unique h h'⟩

/-- **C47**: the reports refine the PEG semantics: every report has the outcome of its expression. -/
theorem C47_reports_refine_peg {G : Str → Option Expr} {tr : Bool} {e : Expr} {j : Journal} {s : Str}
    {o : Report} (h : Reports G tr e j s o) : Peg G e s o.outcome := reports_peg h

/-- `main = ('a' / 'ab' 'x' / 'a' 'c') 'd'` -/
def exReport : SetOfRules := ⟨[(c!"main", .and [.or [.simple (.literal c!"a" ), .and [.simple (.literal c!"b"),
  .simple (.literal c!"x")], .simple (.literal c!"c")], .simple (.literal c!"d")])]⟩

/-- On "b?" the second alternative gets furthest, and its error is the one returned. -/
example : Rejects (denotes exReport) false c!"b?" ⟨.literal c!"x", .normal, [], []⟩ :=
  .failed (.call_bad rfl (.and_bad
    (.or_next_bad (.lit_differs [] 'a' [] 'b' _ _ (by decide)) rfl
      (.or_next_bad (f := ⟨.literal c!"x", .normal, [], []⟩)
        (.and_tail_bad (.lit_ok c!"b" _ _) (.and_bad (.lit_differs [] 'x' [] '?' _ _ (by decide)))) rfl
        (.or_last (.lit_differs [] 'c' [] 'b' _ _ (by decide)) rfl)))))

example : parse c!"b?" exReport = .err ⟨⟨2, 0, 2, 0⟩, .literal c!"x", c!"b?", [], [], .normal⟩ :=
  parse_of_fuel (f := 12) (by decide +kernel) (by simp)

/-- `main = .` on "é": the character is read, but the byte range 0..1 of the line is not a string. -/
example : Panics (denotes ⟨[(c!"main", .simple .dot)]⟩) false ['é'] := by
  refine .unread (q := []) (j := .blank) (.call_ok rfl (.dot_ok _ _ _)) (Or.inr (by decide)) rfl ?_
  rintro b ⟨pre, a, c, h1, h2, h3, h4⟩
  simp only [List.append_nil] at h1
  subst h1
  have hl : lastLine ['é'] = ['é'] := by decide
  rw [hl] at h3
  have ha := byteLen_eq_zero h3
  subst ha
  cases b with
  | nil => simp [byteLen] at h4
  | cons x b =>
    simp only [List.nil_append, List.cons_append, List.cons.injEq] at h2
    obtain ⟨rfl, h2⟩ := h2
    simp only [List.nil_append, byteLen] at h4
    have : ('é' : Char).utf8Size = 2 := by decide
    simp only [this, List.length_cons, List.length_nil] at h4
    omega

/-! ### C21 -/

/-- The body of a repetition inside an expression. -/
inductive RepBody : Expr → Expr → Prop
  | here {e mn mx} : RepBody (.rep e mn mx) e
  | and {es e b} : e ∈ es → RepBody e b → RepBody (.and es) b
  | or {es e b} : e ∈ es → RepBody e b → RepBody (.or es) b
  | not {e b} : RepBody e b → RepBody (.not e) b
  | rep {e mn mx b} : RepBody e b → RepBody (.rep e mn mx) b

/-- `b` is the body of a repetition in `e` or in a rule -/
def BodyOf (G : Str → Option Expr) (e b : Expr) : Prop :=
  RepBody e b ∨ ∃ n e', G n = some e' ∧ RepBody e' b

theorem bodyOf_mono {G e e' b} (h : RepBody e b → RepBody e' b) (hb : BodyOf G e b) : BodyOf G e' b :=
  hb.imp h id

theorem bodyOf_rule {G e e' n b} (hg : G n = some e) (hb : BodyOf G e b) : BodyOf G e' b := by
  rcases hb with h | h
  · exact Or.inr ⟨n, e, hg, h⟩
  · exact Or.inr h

theorem bodyOf_rep {G e mn mx mn' mx' b} (hb : BodyOf G (.rep e mn mx) b) : BodyOf G (.rep e mn' mx') b := by
  refine bodyOf_mono ?_ hb
  intro h
  cases h with
  | here => exact .here
  | rep h => exact .rep h

/-- What a match leaves in the journal is what was there, or the failure of the body of a repetition at a
point of the text read. -/
theorem kept_of_reports {G tr e j s o} (h : Reports G tr e j s o) : ∀ {r ns j'}, o = .ok r ns j' →
    (∃ p, s = p ++ r) ∧ (j'.kept = j.kept ∨ ∃ f b jb p q, j'.kept = some f ∧ f.prio = .normal ∧ BodyOf G e b ∧
      s = p ++ q ∧ r.length ≤ q.length ∧ Reports G tr b jb q (.bad f)) := by
  induction h with
  | lit_ok l r j => intro r ns j' h; cases h; exact ⟨⟨l, rfl⟩, Or.inl rfl⟩
  | class_ok cs rs c r j hc => intro r ns j' h; cases h; exact ⟨⟨[c], rfl⟩, Or.inl rfl⟩
  | dot_ok c r j => intro r ns j' h; cases h; exact ⟨⟨[c], rfl⟩, Or.inl rfl⟩
  | eof_ok j => intro r ns j' h; cases h; exact ⟨⟨[], rfl⟩, Or.inl rfl⟩
  | and_nil s j => intro r ns j' h; cases h; exact ⟨⟨[], rfl⟩, Or.inl rfl⟩
  | rep_full e mn s j => intro r ns j' h; cases h; exact ⟨⟨[], rfl⟩, Or.inl rfl⟩
  | not_bad _ _ => intro r ns j' h; cases h; exact ⟨⟨[], rfl⟩, Or.inl rfl⟩
  | @and_ok e es s r r' ns ns' j j' j'' h1 h2 ih1 ih2 =>
    intro r0 ns0 j0 h
    cases h
    obtain ⟨⟨p1, e1⟩, k1⟩ := ih1 rfl
    obtain ⟨⟨p2, e2⟩, k2⟩ := ih2 rfl
    refine ⟨⟨p1 ++ p2, by rw [e1, e2]; simp⟩, ?_⟩
    rcases k2 with k2 | ⟨f, b, jb, p, q, k3, k4, k5, k6, k7, k8⟩
    · rcases k1 with k1 | ⟨f, b, jb, p, q, k3, k4, k5, k6, k7, k8⟩
      · exact Or.inl (k2.trans k1)
      · refine Or.inr ⟨f, b, jb, p, q, by rw [k2, k3], k4, bodyOf_mono (.and (by simp)) k5, k6, ?_, k8⟩
        have := congrArg List.length e2
        rw [List.length_append] at this
        omega
    · refine Or.inr ⟨f, b, jb, p1 ++ p, q, k3, k4, bodyOf_mono ?_ k5, by rw [e1, k6]; simp, k7, k8⟩
      intro h
      cases h with
      | and hm h => exact .and (by simp [hm]) h
  | @or_ok e es s r ns j j' h1 ih =>
    intro r0 ns0 j0 h
    cases h
    obtain ⟨e1, k⟩ := ih rfl
    refine ⟨e1, k.imp id ?_⟩
    rintro ⟨f, b, jb, p, q, k3, k4, k5, k6⟩
    exact ⟨f, b, jb, p, q, k3, k4, bodyOf_mono (.or (by simp)) k5, k6⟩
  | @or_next_ok e e' es s f r ns j j' _ hp _ _ ih =>
    intro r0 ns0 j0 h
    cases h
    obtain ⟨e1, k⟩ := ih rfl
    refine ⟨e1, k.imp id ?_⟩
    rintro ⟨f, b, jb, p, q, k3, k4, k5, k6⟩
    refine ⟨f, b, jb, p, q, k3, k4, bodyOf_mono ?_ k5, k6⟩
    intro h
    cases h with
    | or hm h => exact .or (List.mem_cons_of_mem _ hm) h
  | @rep_more e mn mx s r r' ns ns' j j' j'' h0 h1 h2 ih1 ih2 =>
    intro r0 ns0 j0 h
    cases h
    obtain ⟨⟨p1, e1⟩, k1⟩ := ih1 rfl
    obtain ⟨⟨p2, e2⟩, k2⟩ := ih2 rfl
    refine ⟨⟨p1 ++ p2, by rw [e1, e2]; simp⟩, ?_⟩
    rcases k2 with k2 | ⟨f, b, jb, p, q, k3, k4, k5, k6, k7, k8⟩
    · rcases k1 with k1 | ⟨f, b, jb, p, q, k3, k4, k5, k6, k7, k8⟩
      · exact Or.inl (k2.trans k1)
      · refine Or.inr ⟨f, b, jb, p, q, by rw [k2, k3], k4, bodyOf_mono .rep k5, k6, ?_, k8⟩
        have := congrArg List.length e2
        rw [List.length_append] at this
        omega
    · exact Or.inr ⟨f, b, jb, p1 ++ p, q, k3, k4, bodyOf_rep k5, by rw [e1, k6]; simp, k7, k8⟩
  | @rep_stop e mx s f j h0 h1 hp ih =>
    intro r0 ns0 j0 h
    cases h
    exact ⟨⟨[], rfl⟩, Or.inr ⟨f, e, j, [], s, rfl, hp, Or.inl .here, rfl, le_refl _, h1⟩⟩
  | @call_ok n e s r ns j j' hg h1 ih =>
    intro r0 ns0 j0 h
    cases h
    obtain ⟨e1, k⟩ := ih rfl
    refine ⟨e1, k.imp id ?_⟩
    rintro ⟨f, b, jb, p, q, k3, k4, k5, k6⟩
    exact ⟨f, b, jb, p, q, k3, k4, bodyOf_rule hg k5, k6⟩
  | _ => intro r ns j' h; cases h

/-- **C21**: when `main` matches only a proper prefix, the error is the fault remembered from the latest
repetition that stopped, or else "not consumed full input" at the end of the match. -/
theorem C21_incomplete_match {s q : Str} {R : SetOfRules} {t : Node} {j : Journal} (ha : Ascii s)
    (h : Reports (denotes R) false (.ruleName c!"main") .blank s (.ok q [t] j)) (hq : q ≠ []) (e : Error) :
    parse s R = .err e ↔
      Describes s (match j.kept with | some f => f | none => ⟨.notConsumed, .normal, q, j.rules⟩) e := by
  rw [C47_parse_err_iff s R, and_iff_right (panics_ascii ha)]
  have hrej : Rejects (denotes R) false s
      (match j.kept with | some f => f | none => ⟨.notConsumed, .normal, q, j.rules⟩) := by
    cases hk : j.kept with
    | some f => exact .kept h (Or.inl hq) hk
    | none => exact .unread h (Or.inl hq) hk
  constructor
  · rintro ⟨f, h1, h2⟩
    rw [rejects_det hrej h1]; exact h2
  · intro h1; exact ⟨_, hrej, h1⟩

/-- **C21**: a remembered fault is the failure of the body of a repetition of the grammar, at a point of
the matched part of the text. -/
theorem C21_kept_fault_is_a_repetition_that_stopped {G : Str → Option Expr} {tr : Bool} {s q : Str}
    {ns : List Node} {j : Journal} {f : Fault}
    (h : Reports G tr (.ruleName c!"main") .blank s (.ok q ns j)) (hk : j.kept = some f) :
    ∃ n e b jb before after, G n = some e ∧ RepBody e b ∧ s = before ++ after ∧ q.length ≤ after.length ∧
      Reports G tr b jb after (.bad f) := by
  obtain ⟨_, k⟩ := kept_of_reports h rfl
  rcases k with k | ⟨f', b, jb, p, r, k3, k4, k5, k6, k7, k8⟩
  · rw [hk] at k; cases k
  · rw [hk] at k3; cases k3
    rcases k5 with k5 | ⟨n, e, hg, k5⟩
    · cases k5
    · exact ⟨n, e, b, jb, p, r, hg, k5, k6, k7, k8⟩

/-- **C21**: without repetitions the error of an incomplete match is at the end of the match. -/
theorem C21_without_repetitions {s q : Str} {R : SetOfRules} {t : Node} {e : Error}
    (hrep : ∀ n e b, denotes R n = some e → ¬ RepBody e b)
    (h : Peg (denotes R) (.ruleName c!"main") s (.ok q [t])) (he : parse s R = .err e) :
    e.descr = .notConsumed ∧ e.priority = .normal ∧ ∃ pre, s = pre ++ q ∧ CoordsOf pre e.pos := by
  obtain ⟨f, h1, h2⟩ := ((C47_parse_err_iff s R e).1 he).2
  cases h1 with
  | failed h1 =>
    have h3 := peg_det h (reports_peg h1)
    unfold Report.outcome at h3
    split at h3
    · rename_i hh; cases hh
    · split at h3 <;> cases h3
  | kept h1 _ hk =>
    obtain ⟨n, e, b, _, _, _, hg, hb, _⟩ := C21_kept_fault_is_a_repetition_that_stopped h1 hk
    exact absurd hb (hrep n e b hg)
  | unread h1 _ hk =>
    have h3 := peg_det h (reports_peg h1)
    simp only [Report.outcome, Outcome.ok.injEq] at h3
    obtain ⟨rfl, _⟩ := h3
    obtain ⟨pre, h4, h5⟩ := h2.pos
    exact ⟨h2.descr, h2.priority, pre, h4, h5⟩

/-- The expectation that the error is never before the end of the match is false: for
`main = 'a'* 'b' 'c'` on "bcd" the text is matched up to offset 2 but the error returned, remembered from
the repetition, is located at offset 1. -/
theorem C21_may_precede_the_end_of_the_match : ∃ (s q : Str) (R : SetOfRules) (t : Node) (e : Error),
    Ascii s ∧ RulesBoundsOK R ∧
    Peg (grammar R) (.ruleName c!"main") s (.ok q [t]) ∧ q ≠ [] ∧ parse s R = .err e ∧
    e.pos.n + q.length < s.length := by
  refine ⟨c!"bcd", c!"d", ⟨[(c!"main", .and [.rep (.simple (.literal c!"a")) 0 none,
      .simple (.literal c!"b"), .simple (.literal c!"c")])]⟩, .rule c!"main" [.val c!"b", .val c!"c"],
    ⟨⟨1, 0, 1, 0⟩, .literal c!"a", c!"b", c!"cd", [], .normal⟩, by decide, ?_, ?_, by simp,
    parse_of_fuel (f := 8) (by decide +kernel) (by simp), by decide⟩
  · intro ne h
    simp only [List.mem_singleton] at h
    subst h
    refine .and ?_
    intro e he
    simp only [List.mem_cons, List.not_mem_nil, or_false] at he
    rcases he with rfl | rfl | rfl
    · exact .rep (.simple _) (by simp)
    · exact .simple _
    · exact .simple _
  · exact .call_ok rfl (.and_ok (ns := []) (.rep_stop (by simp) (.lit_fail _ _ (by decide)))
      (.and_ok (ns := [_]) (.lit_ok c!"b" c!"cd") (.and_ok (ns := [_]) (.lit_ok c!"c" c!"d") (.and_nil _))))

/-- `main = 'a'* 'b'`: on "aabb" the error is the one at which the repetition stopped -/
example : ∃ j, Reports (denotes ⟨[(c!"main", .and [.rep (.simple (.literal c!"a")) 0 none,
      .simple (.literal c!"b")])]⟩) false (.ruleName c!"main") .blank c!"abb"
      (.ok c!"b" [.rule c!"main" [.val c!"a", .val c!"b"]] j) ∧
    j.kept = some ⟨.literal c!"a", .normal, c!"b", []⟩ :=
  ⟨_, .call_ok rfl (.and_ok (ns := [_]) (.rep_more (ns := [_]) (ns' := []) (by simp) (.lit_ok c!"a" c!"bb" _)
      (.rep_stop (by simp) (.lit_differs [] 'a' [] 'b' c!"b" _ (by decide)) rfl))
    (.and_ok (ns := [_]) (ns' := []) (.lit_ok c!"b" c!"b" _) (.and_nil _ _))), rfl⟩

end DP
