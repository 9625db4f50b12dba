/-
C10, C14-C17, C19, C20: the errors returned by `parse`.
-/
import Verif.Props.Core

namespace DP
open Spec

/-! ### C14 -/

theorem errAt_of_end {R s st t e} {dbg : Bool}
    (hI : InvP s st) (h : (match st.potentialError with
        | some e => .err e
        | none => raise st .notConsumed .normal : Out Error Node) = .err e)
    (_ : runRule R (Status.initDebug s dbg) c!"main" = .ok (st, t) ∨
      runRule R (Status.init s) c!"main" = .ok (st, t)) : ErrAt s e := by
  cases hp : st.potentialError with
  | some er => rw [hp] at h; cases h; exact hI.pot _ hp
  | none => rw [hp] at h; exact inv_err hI.toInv (raise_err h)

theorem errAt_parse {s R e} (h : parse s R = .err e) : ErrAt s e := by
  have hg := good_runRule (preserved_invP R s) (fun _ _ _ _ _ => trivial) (n := c!"main") (invP_init s) trivial
  rw [parse_eq] at h
  cases hx : runRule R (Status.init s) c!"main" with
  | ok x =>
    obtain ⟨st, ast⟩ := x
    rw [hx] at h hg
    simp only at h
    split at h
    · cases h
    · exact errAt_of_end (dbg := true) hg h (Or.inr hx)
  | err er => rw [hx] at h hg; cases h; exact hg
  | panic => rw [hx] at h; cases h
  | diverge => rw [hx] at h; cases h

theorem errAt_parseDebug {s R e} (h : parseDebug s R = .err e) : ErrAt s e := by
  have hg := good_runRule (preserved_invP R s) (fun _ _ _ _ _ => trivial) (n := c!"main")
    (invP_initDebug s true) trivial
  rw [parseDebug_eq] at h
  cases hx : runRule R (Status.initDebug s true) c!"main" with
  | ok x =>
    obtain ⟨st, ast⟩ := x
    rw [hx] at h hg
    simp only at h
    split at h
    · cases h
    · exact errAt_of_end hg h (Or.inl hx)
  | err er => rw [hx] at h hg; cases h; exact hg
  | panic => rw [hx] at h; cases h
  | diverge => rw [hx] at h; cases h

/-- **C14**: the position of an error returned by `parse` consists of the true coordinates of a point of
the input. -/
theorem C14_positions_are_true_coordinates {s : Str} {R : SetOfRules} {e : Error}
    (h : parse s R = .err e) : ∃ before after, s = before ++ after ∧ CoordsOf before e.pos := by
  obtain ⟨pre, post, h1, h2, _⟩ := (errAt_parse h).at_
  exact ⟨pre, post, h1, h2⟩

/-- **C14**, for `parse_debug`. -/
theorem C14_positions_are_true_coordinates_debug {s : Str} {R : SetOfRules} {e : Error}
    (h : parseDebug s R = .err e) : ∃ before after, s = before ++ after ∧ CoordsOf before e.pos := by
  obtain ⟨pre, post, h1, h2, _⟩ := (errAt_parseDebug h).at_
  exact ⟨pre, post, h1, h2⟩

/-- A text that fails on its second line. -/
theorem exErr : parse c!"ab\nab?" ⟨[(c!"main", .and [.simple (.literal c!"ab\n"), .simple (.literal c!"ab"),
      .simple (.literal c!"!")])]⟩ =
    .err { pos := ⟨6, 1, 3, 3⟩, descr := .literal c!"!", lineBefore := c!"ab?", lineAfter := [],
           parsingRules := [], priority := .normal } :=
  parse_of_fuel (f := 8) (by decide +kernel) (by simp)

example : ∃ before after, c!"ab\nab?" = before ++ after ∧ CoordsOf before ⟨6, 1, 3, 3⟩ :=
  C14_positions_are_true_coordinates exErr

/-! ### C15 -/

theorem takeWhile_line (post : Str) :
    let la := post.takeWhile (fun ch => ch != '\n' && ch != '\r')
    ∃ rest, post = la ++ rest ∧ ('\n' ∉ la ∧ '\r' ∉ la) ∧
      (rest = [] ∨ ∃ c r, rest = c :: r ∧ (c = '\n' ∨ c = '\r')) := by
  intro la
  refine ⟨post.dropWhile (fun ch => ch != '\n' && ch != '\r'),
    (List.takeWhile_append_dropWhile).symm, ⟨?_, ?_⟩, ?_⟩
  · intro h; have := List.mem_takeWhile_imp h; simp at this
  · intro h; have := List.mem_takeWhile_imp h; simp at this
  · cases h : post.dropWhile (fun ch => ch != '\n' && ch != '\r') with
    | nil => exact Or.inl rfl
    | cons c r =>
      right
      refine ⟨c, r, rfl, ?_⟩
      have := List.head?_dropWhile_not (fun ch => ch != '\n' && ch != '\r') post
      rw [h] at this
      by_cases hc : c = '\n'
      · exact Or.inl hc
      · right; simpa [hc] using this

theorem errAt_line {s : Str} {e : Error} (ha : Ascii s) (h : ErrAt s e) :
    ∃ pre post, s = pre ++ e.lineBefore ++ e.lineAfter ++ post ∧
      (pre ++ e.lineBefore).length = e.pos.n ∧
      (pre = [] ∨ ∃ p, pre = p ++ ['\n']) ∧ '\n' ∉ e.lineBefore ∧
      ('\n' ∉ e.lineAfter ∧ '\r' ∉ e.lineAfter) ∧
      (post = [] ∨ ∃ c r, post = c :: r ∧ (c = '\n' ∨ c = '\r')) := by
  obtain ⟨pre, post, h1, h2, h3, h4⟩ := h.at_
  have h5 := slice_line (h1 ▸ ha) h2
  rw [← h1, h4, Option.some.injEq] at h5
  obtain ⟨p0, h6, h7⟩ := lastLine_split pre
  obtain ⟨rest, h8, h9, h10⟩ := takeWhile_line post
  refine ⟨p0, rest, ?_, ?_, h7, ?_, ?_, h10⟩
  · rw [h1, h5, ← h6, h3, List.append_assoc, ← h8]
  · rw [h5, ← h6, h2.n]
  · rw [h5]; exact lastLine_no_newline pre
  · rw [h3]; exact h9

/-- **C15**: `line_before` and `line_after` are the pieces of the line around the error position. -/
theorem C15_line_context {s : Str} {R : SetOfRules} {e : Error} (ha : Ascii s)
    (h : parse s R = .err e) :
    ∃ pre post, s = pre ++ e.lineBefore ++ e.lineAfter ++ post ∧
      (pre ++ e.lineBefore).length = e.pos.n ∧
      (pre = [] ∨ ∃ p, pre = p ++ ['\n']) ∧ '\n' ∉ e.lineBefore ∧
      ('\n' ∉ e.lineAfter ∧ '\r' ∉ e.lineAfter) ∧
      (post = [] ∨ ∃ c r, post = c :: r ∧ (c = '\n' ∨ c = '\r')) :=
  errAt_line ha (errAt_parse h)

theorem C15_line_context_debug {s : Str} {R : SetOfRules} {e : Error} (ha : Ascii s)
    (h : parseDebug s R = .err e) :
    ∃ pre post, s = pre ++ e.lineBefore ++ e.lineAfter ++ post ∧
      (pre ++ e.lineBefore).length = e.pos.n ∧
      (pre = [] ∨ ∃ p, pre = p ++ ['\n']) ∧ '\n' ∉ e.lineBefore ∧
      ('\n' ∉ e.lineAfter ∧ '\r' ∉ e.lineAfter) ∧
      (post = [] ∨ ∃ c r, post = c :: r ∧ (c = '\n' ∨ c = '\r')) :=
  errAt_line ha (errAt_parseDebug h)

example : ∃ s R e, Ascii s ∧ parse s R = .err e ∧ e.lineBefore = c!"ab?" :=
  ⟨_, _, _, by decide, exErr, rfl⟩

/-! ### C16 -/

/-- **C16**: `parse` does not panic on ASCII text. -/
theorem C16_no_panic_on_ascii {s : Str} (R : SetOfRules) (ha : Ascii s) : parse s R ≠ .panic := by
  intro h
  rw [parse_eq] at h
  cases hx : runRule R (Status.init s) c!"main" with
  | ok x =>
    obtain ⟨st, ast⟩ := x
    rw [hx] at h
    simp only at h
    split at h
    · cases h
    · split at h
      · cases h
      · obtain ⟨e, he, _⟩ := raise_ascii (α := Node) (d := .notConsumed) (p := .normal) ha
          (inv_main hx).toInv
        rw [he] at h; cases h
  | err e => rw [hx] at h; cases h
  | panic => exact runRule_ne_panic ha (invP_init s) hx
  | diverge => rw [hx] at h; cases h

/-- **C16**, for `parse_debug`. -/
theorem C16_no_panic_on_ascii_debug {s : Str} (R : SetOfRules) (ha : Ascii s) :
    parseDebug s R ≠ .panic := by
  intro h
  have hg := good_runRule (preserved_invP R s) (fun _ _ _ _ _ => trivial) (n := c!"main")
    (invP_initDebug s true) trivial
  rw [parseDebug_eq] at h
  cases hx : runRule R (Status.initDebug s true) c!"main" with
  | ok x =>
    obtain ⟨st, ast⟩ := x
    rw [hx] at h hg
    simp only at h
    split at h
    · cases h
    · split at h
      · cases h
      · obtain ⟨e, he, _⟩ := raise_ascii (α := Node) (d := .notConsumed) (p := .normal) ha
          (show InvP s st from hg).toInv
        rw [he] at h; cases h
  | err e => rw [hx] at h; cases h
  | panic => exact runRule_ne_panic ha (invP_initDebug s true) hx
  | diverge => rw [hx] at h; cases h

example : Ascii c!"any\ttext\r\n~" := by decide

/-! ### C17 -/

/-- **C17** is false: `parse` returns `Ok` only on ASCII texts, whatever the rules ... -/
theorem C17_ok_only_on_ascii {s : Str} {R : SetOfRules} {t : Node} (h : parse s R = .ok t) :
    Ascii s := by
  rw [parse_eq] at h
  cases hr : runRule R (Status.init s) c!"main" with
  | ok x =>
    obtain ⟨st, ast⟩ := x
    rw [hr] at h
    simp only at h
    by_cases hn : st.pos.n = byteLen s
    · exact (inv_end (inv_main hr).toInv hn).2
    · rw [if_neg hn] at h
      cases hp : st.potentialError with
      | some e => rw [hp] at h; cases h
      | none => rw [hp] at h; exact absurd h raise_ok
  | err e => rw [hr] at h; cases h
  | panic => rw [hr] at h; cases h
  | diverge => rw [hr] at h; cases h

/-- ... although the semantics accepts the text, and the code even panics: `main = .` on "é". -/
theorem C17_false : ∃ (s : Str) (R : SetOfRules) (t : Node),
    Peg (grammar R) (.ruleName c!"main") s (.ok [] [t]) ∧ RulesBoundsOK R ∧ parse s R = .panic := by
  refine ⟨['é'], ⟨[(c!"main", .simple .dot)]⟩, .rule c!"main" [.val ['é']],
    .call_ok rfl (.dot_ok _ _), ?_, parse_of_fuel (f := 4) (by decide +kernel) (by simp)⟩
  intro ne h
  simp only [List.mem_singleton] at h
  subst h
  exact .simple _

/-! ### C10 -/

/-- **C10**: closed rule sets never report a missing rule. -/
theorem C10_closed_rules_never_missing {s : Str} {R : SetOfRules} {e : Error} (hc : ClosedRules R)
    (h : parse s R = .err e) : ∀ n, e.descr ≠ .missingRule n := by
  have H : Preserved R (fun n => ∃ e, R.get n = some e)
      (fun st => ∀ e, st.potentialError = some e → ∀ n, e.descr ≠ .missingRule n)
      (fun e => ∀ n, e.descr ≠ .missingRule n) True :=
    { get := by intro st st' c h hg; rw [(getChar_ok hg).2.2.1]; exact h
      push := fun h _ _ => h
      pot := by intro st e h he _ e' h'; cases h'; exact he
      err := by
        intro st d p e h hr hf n hn
        rw [(fromStatus_fields hf).2.1] at hn
        subst hn
        cases hr with
        | missing _ hN hG => obtain ⟨e, he⟩ := hN; rw [hG] at he; cases he
      pan := fun _ _ _ => trivial }
  have hg := good_runRule H (fun n e hne m hm => hc.2 n e m hne hm) (n := c!"main")
    (st := Status.init s) (by intro e he; cases he) hc.1
  rw [parse_eq] at h
  cases hx : runRule R (Status.init s) c!"main" with
  | ok x =>
    obtain ⟨st, ast⟩ := x
    rw [hx] at h hg
    simp only at h
    split at h
    · cases h
    · cases hp : st.potentialError with
      | some er => rw [hp] at h; cases h; exact hg _ hp
      | none =>
        rw [hp] at h
        intro n hn
        rw [(fromStatus_fields (raise_err h)).2.1] at hn
        cases hn
  | err er => rw [hx] at h hg; cases h; exact hg
  | panic => rw [hx] at h; cases h
  | diverge => rw [hx] at h; cases h

example : ClosedRules exRules := by
  refine ⟨⟨_, rfl⟩, ?_⟩
  intro n e m hg hr
  have hm := mem_of_get (R := exRules) hg
  simp only [exRules, List.mem_cons, List.not_mem_nil, or_false, Prod.mk.injEq] at hm
  rcases hm with ⟨rfl, rfl⟩ | ⟨rfl, rfl⟩ | ⟨rfl, rfl⟩
  · cases hr with
    | and h1 h2 =>
      simp only [List.mem_cons, List.not_mem_nil, or_false] at h1
      rcases h1 with rfl | rfl
      · cases h2 with | rep h => cases h; exact ⟨_, rfl⟩
      · cases h2 with | not h => cases h
  · cases hr with
    | or h1 h2 =>
      simp only [List.mem_cons, List.not_mem_nil, or_false] at h1
      rcases h1 with rfl | rfl | rfl
      · cases h2
      · cases h2
      · cases h2; exact ⟨_, rfl⟩
  · cases hr

/-- **C10**: without a rule `main`, `parse` always reports that `main` is missing, at position 0. -/
theorem C10_no_main {R : SetOfRules} (h : grammar R c!"main" = none) (s : Str) :
    ∃ e, parse s R = .err e ∧ e.descr = .missingRule c!"main" ∧ e.priority = .critical ∧
      e.pos = ⟨0, 0, 0, 0⟩ := by
  have hf : fromStatus (Status.init s) (.missingRule c!"main") .critical =
      some { pos := ⟨0, 0, 0, 0⟩, descr := .missingRule c!"main", lineBefore := [],
             lineAfter := s.takeWhile (fun ch => ch != '\n' && ch != '\r'),
             parsingRules := [], priority := .critical } := by
    unfold fromStatus
    simp [Status.init, Pos.init, slice, dropBytes, takeBytes]
  have hr : runRule R (Status.init s) c!"main" = raise (Status.init s) (.missingRule c!"main") .critical := by
    rw [runRule_eq]
    have : R.get c!"main" = none := h
    rw [this]; rfl
  refine ⟨⟨⟨0, 0, 0, 0⟩, .missingRule c!"main", [],
    s.takeWhile (fun ch => ch != '\n' && ch != '\r'), [], .critical⟩, ?_, rfl, rfl, rfl⟩
  rw [parse_eq, hr]
  unfold raise
  rw [hf]

example : grammar ⟨[(c!"start", .simple .dot)]⟩ c!"main" = none := rfl

/-! ### C19 -/

/-- **C19**: errors of `parse` carry no rule trace. -/
theorem C19_parse_has_no_trace {s : Str} {R : SetOfRules} {e : Error} (h : parse s R = .err e) :
    e.parsingRules = [] := by
  have H : Preserved R (fun _ => True)
      (fun st => st.traceRules = false ∧ st.walkingRules = [] ∧
        ∀ e, st.potentialError = some e → e.parsingRules = [])
      (fun e => e.parsingRules = []) True :=
    { get := by
        intro st st' c h hg
        obtain ⟨_, _, h1, h2, h3, _⟩ := getChar_ok hg
        rw [h1, h2, h3]; exact h
      push := by intro st n h _ ht; rw [h.1] at ht; cases ht
      pot := by intro st e h he _; exact ⟨h.1, h.2.1, by intro e' h'; cases h'; exact he⟩
      err := by intro st d p e h _ hf; rw [(fromStatus_fields hf).2.2.2]; exact h.2.1
      pan := fun _ _ _ => trivial }
  have hg := good_runRule H (fun _ _ _ _ _ => trivial) (n := c!"main") (st := Status.init s)
    ⟨rfl, rfl, by intro e he; cases he⟩ trivial
  rw [parse_eq] at h
  cases hx : runRule R (Status.init s) c!"main" with
  | ok x =>
    obtain ⟨st, ast⟩ := x
    rw [hx] at h hg
    simp only at h
    split at h
    · cases h
    · cases hp : st.potentialError with
      | some er => rw [hp] at h; cases h; exact hg.2.2 _ hp
      | none => rw [hp] at h; rw [(fromStatus_fields (raise_err h)).2.2.2]; exact hg.2.1
  | err er => rw [hx] at h hg; cases h; exact hg
  | panic => rw [hx] at h; cases h
  | diverge => rw [hx] at h; cases h

/-- A trace of visited rules: empty, or `r:main` followed by names that some rule references. -/
def TraceOK (R : SetOfRules) (tr : List Str) : Prop :=
  ∃ rest, tr = (c!"r:main") :: rest ∧
    ∀ x ∈ rest, ∃ n, x = c!"r:" ++ n ∧ ∃ m e, grammar R m = some e ∧ Refs e n

/-- **C19**: errors of `parse_debug` carry a trace that starts with `r:main` and continues with
referenced rules. -/
theorem C19_debug_trace_sound {s : Str} {R : SetOfRules} {e : Error} (h : parseDebug s R = .err e) :
    TraceOK R e.parsingRules := by
  have H : Preserved R (fun n => ∃ m e, grammar R m = some e ∧ Refs e n)
      (fun st => TraceOK R st.walkingRules ∧
        ∀ e, st.potentialError = some e → TraceOK R e.parsingRules)
      (fun e => TraceOK R e.parsingRules) True :=
    { get := by
        intro st st' c h hg
        obtain ⟨_, _, h1, h2, h3, _⟩ := getChar_ok hg
        rw [h1, h3]; exact h
      push := by
        intro st n h hn ht
        obtain ⟨⟨rest, h1, h2⟩, h3⟩ := h
        refine ⟨⟨rest ++ [c!"r:" ++ n], by simp [Status.pushRule, h1], ?_⟩, h3⟩
        intro x hx
        rcases List.mem_append.mp hx with hx | hx
        · exact h2 x hx
        · simp only [List.mem_singleton] at hx
          exact ⟨n, hx, hn⟩
      pot := by intro st e h he _; exact ⟨h.1, by intro e' h'; cases h'; exact he⟩
      err := by intro st d p e h _ hf; rw [(fromStatus_fields hf).2.2.2]; exact h.1
      pan := fun _ _ _ => trivial }
  have hN : ∀ n e, R.get n = some e → ∀ m, Refs e m → ∃ m' e, grammar R m' = some e ∧ Refs e m :=
    fun n e hg m hm => ⟨n, e, hg, hm⟩
  have hinit : TraceOK R ((Status.initDebug s true).pushRule (c!"r:" ++ c!"main")).walkingRules :=
    ⟨[], rfl, by simp⟩
  have hg : Good (fun st => TraceOK R st.walkingRules ∧
        ∀ e, st.potentialError = some e → TraceOK R e.parsingRules)
      (fun e => TraceOK R e.parsingRules) True (runRule R (Status.initDebug s true) c!"main") := by
    rw [runRule_eq]
    have htr : (Status.initDebug s true).traceRules = true := rfl
    simp only [htr, if_true]
    have hP0 : TraceOK R ((Status.initDebug s true).pushRule (c!"r:" ++ c!"main")).walkingRules ∧
        ∀ e, ((Status.initDebug s true).pushRule (c!"r:" ++ c!"main")).potentialError = some e →
          TraceOK R e.parsingRules := ⟨hinit, by intro e he; cases he⟩
    cases hgm : R.get c!"main" with
    | none =>
      simp only
      generalize (Status.initDebug s true).pushRule (c!"r:" ++ c!"main") = st0 at *
      unfold raise
      cases hf : fromStatus st0 (.missingRule c!"main") .critical with
      | none => trivial
      | some e =>
        show TraceOK R e.parsingRules
        rw [(fromStatus_fields hf).2.2.2]; exact hinit
    | some e =>
      have := good_runExpr H hN (st := (Status.initDebug s true).pushRule (c!"r:" ++ c!"main"))
        (e := e) hP0 (fun m hm => ⟨_, e, hgm, hm⟩)
      simp only
      cases hy : runExpr R ((Status.initDebug s true).pushRule (c!"r:" ++ c!"main")) e <;>
        rw [hy] at this <;> exact this
  rw [parseDebug_eq] at h
  cases hx : runRule R (Status.initDebug s true) c!"main" with
  | ok x =>
    obtain ⟨st, ast⟩ := x
    rw [hx] at h hg
    simp only at h
    split at h
    · cases h
    · cases hp : st.potentialError with
      | some er => rw [hp] at h; cases h; exact hg.2 _ hp
      | none => rw [hp] at h; rw [(fromStatus_fields (raise_err h)).2.2.2]; exact hg.1
  | err er => rw [hx] at h hg; cases h; exact hg
  | panic => rw [hx] at h; cases h
  | diverge => rw [hx] at h; cases h

example : ∃ e, parseDebug c!"ab?" exRules = .err e ∧
    e.parsingRules = [c!"r:main", c!"r:word"] :=
  ⟨_, parseDebug_of_fuel (f := 20) (x := .err ⟨⟨2, 0, 2, 0⟩, .not, c!"ab", c!"?",
    [c!"r:main", c!"r:word"], .normal⟩)
    (by decide +kernel) (by simp), rfl⟩

/-! ### C20 -/

/-- the last alternative among those whose error is deepest -/
theorem runOr_deep (R : SetOfRules) (st : Status) : ∀ (es : List Expr) (errs : List Error) (acc : Option Error),
    List.Forall₂ (fun e er => runExpr R st e = .err er ∧ er.priority = .normal) es errs →
    (∀ a, acc = some a → a.priority = .normal) →
    (acc ≠ none ∨ es ≠ []) →
    ∃ pre er post, (acc.toList ++ errs) = pre ++ er :: post ∧ runOr R st es acc = .err er ∧
      (∀ x ∈ pre, x.pos.n ≤ er.pos.n) ∧ (∀ x ∈ post, x.pos.n < er.pos.n) := by
  intro es
  induction es with
  | nil =>
    intro errs acc h hacc hne
    cases h
    rcases hne with hne | hne
    · cases acc with
      | none => exact absurd rfl hne
      | some a => exact ⟨[], a, [], by simp, by rw [runOr_nil], by simp, by simp⟩
    · exact absurd rfl hne
  | cons e es ih =>
    intro errs acc h hacc _
    cases h with
    | @cons _ er _ errs h1 h2 =>
      rw [runOr_cons, h1.1]
      simp only
      rw [if_neg (by rw [h1.2]; simp)]
      cases acc with
      | none =>
        obtain ⟨pre, x, post, h3, h4, h5, h6⟩ := ih errs (some er) h2 (by
          intro a ha; cases ha; exact h1.2) (Or.inl (by simp))
        refine ⟨pre, x, post, ?_, h4, h5, h6⟩
        simpa using h3
      | some a =>
        have ha := hacc a rfl
        have hd : deepErr (some a) er = if a.pos.n > er.pos.n then some a else some er := by
          unfold deepErr
          simp only [ha, h1.2, Prio.gt]
          by_cases hp : a.pos.n > er.pos.n <;> simp [hp]
        rw [hd]
        by_cases hp : a.pos.n > er.pos.n
        · rw [if_pos hp]
          obtain ⟨pre, x, post, h3, h4, h5, h6⟩ := ih errs (some a) h2 hacc (Or.inl (by simp))
          simp only [Option.toList_some, List.cons_append, List.nil_append] at h3
          cases pre with
          | nil =>
            simp only [List.nil_append, List.cons.injEq] at h3
            obtain ⟨rfl, rfl⟩ := h3
            refine ⟨[], a, er :: errs, by simp, h4, by simp, ?_⟩
            intro y hy
            rcases List.mem_cons.mp hy with rfl | hy
            · exact hp
            · exact h6 y hy
          | cons b pre =>
            simp only [List.cons_append, List.cons.injEq] at h3
            obtain ⟨rfl, rfl⟩ := h3
            refine ⟨a :: er :: pre, x, post, by simp, h4, ?_, h6⟩
            have hax := h5 a (by simp)
            intro y hy
            rcases List.mem_cons.mp hy with rfl | hy
            · exact hax
            · rcases List.mem_cons.mp hy with rfl | hy
              · omega
              · exact h5 y (by simp [hy])
        · rw [if_neg hp]
          obtain ⟨pre, x, post, h3, h4, h5, h6⟩ := ih errs (some er) h2 (by
            intro a ha; cases ha; exact h1.2) (Or.inl (by simp))
          simp only [Option.toList_some, List.cons_append, List.nil_append] at h3
          refine ⟨a :: pre, x, post, by simp [h3], h4, ?_, h6⟩
          intro y hy
          rcases List.mem_cons.mp hy with rfl | hy
          · cases pre with
            | nil =>
              simp only [List.nil_append, List.cons.injEq] at h3
              obtain ⟨rfl, _⟩ := h3
              omega
            | cons b pre =>
              simp only [List.cons_append, List.cons.injEq] at h3
              obtain ⟨rfl, _⟩ := h3
              have := h5 er (by simp)
              omega
          · exact h5 y hy

/-- **C20**: when all alternatives of a non-empty choice fail with ordinary errors, the choice reports one
of these errors; no other is deeper, and the ones of later alternatives are strictly less deep. -/
theorem C20_failed_choice_reports_deepest {R : SetOfRules} {st : Status} {es : List Expr}
    {errs : List Error} (hne : es ≠ [])
    (h : List.Forall₂ (fun e er => runExpr R st e = .err er ∧ er.priority = .normal) es errs) :
    ∃ pre er post, errs = pre ++ er :: post ∧ runExpr R st (.or es) = .err er ∧
      (∀ x ∈ pre, x.pos.n ≤ er.pos.n) ∧ (∀ x ∈ post, x.pos.n < er.pos.n) := by
  have := runOr_deep R st es errs none h (by simp) (Or.inr hne)
  rw [runExpr_or]
  simpa using this

/-- **C20**: an empty choice fails where it stands. -/
theorem C20_empty_choice {R : SetOfRules} {s : Str} {st : Status} (ha : Ascii s) (hI : Inv s st) :
    ∃ er, runExpr R st (.or []) = .err er ∧ er.pos = st.pos ∧ er.priority = .normal := by
  obtain ⟨e, he, hf⟩ := raise_ascii (α := Status × List Node) (d := .orLogic) (p := .normal) ha hI
  refine ⟨e, ?_, (fromStatus_fields hf).1, (fromStatus_fields hf).2.2.1⟩
  rw [runExpr_or, runOr_nil]
  exact he

example : ∃ (R : SetOfRules) (st : Status) (es : List Expr) (errs : List Error), es.length = 3 ∧
    List.Forall₂ (fun e er => runExpr R st e = .err er ∧ er.priority = .normal) es errs := by
  refine ⟨SetOfRules.empty, Status.init c!"abx", [.simple (.literal c!"b"), .simple (.literal c!"abc"),
    .simple (.literal c!"ac")],
    [⟨⟨1, 0, 1, 0⟩, .literal c!"b", c!"a", c!"bx", [], .normal⟩,
     ⟨⟨3, 0, 3, 0⟩, .literal c!"abc", c!"abx", [], [], .normal⟩,
     ⟨⟨2, 0, 2, 0⟩, .literal c!"ac", c!"ab", c!"x", [], .normal⟩], rfl, ?_⟩
  refine .cons ⟨?_, rfl⟩ (.cons ⟨?_, rfl⟩ (.cons ⟨?_, rfl⟩ .nil)) <;> rw [runExpr_simple] <;> rfl

end DP
