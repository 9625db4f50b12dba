/-
C05-C08: the meaning of `or!`, `rep!`, `not!` and `and!` at an arbitrary position (status).
-/
import Verif.Props.Errors

namespace DP
open Spec

/-- `Fails R st e`: at `st`, the expression fails with an ordinary (recoverable) error. -/
def Fails (R : SetOfRules) (st : Status) (e : Expr) : Prop :=
  ∃ er, runExpr R st e = .err er ∧ er.priority = .normal

/-! ### C05 -/

theorem runOr_ok (R : SetOfRules) (st : Status) (x) : ∀ es acc,
    runOr R st es acc = .ok x ↔
      ∃ pre e post, es = pre ++ e :: post ∧ (∀ a ∈ pre, Fails R st a) ∧ runExpr R st e = .ok x := by
  intro es
  induction es with
  | nil =>
    intro acc
    rw [runOr_nil]
    constructor
    · cases acc with
      | none => intro h; exact absurd h raise_ok
      | some e => intro h; cases h
    · rintro ⟨pre, e, post, h, _⟩; simp at h
  | cons a es ih =>
    intro acc
    rw [runOr_cons]
    constructor
    · intro h
      cases ha : runExpr R st a with
      | ok y =>
        rw [ha] at h
        exact ⟨[], a, es, rfl, by simp, by rw [ha]; exact h⟩
      | err er =>
        rw [ha] at h
        simp only at h
        by_cases hp : er.priority = .critical
        · rw [if_pos hp] at h; cases h
        · rw [if_neg hp] at h
          obtain ⟨pre, e, post, h1, h2, h3⟩ := (ih _).1 h
          refine ⟨a :: pre, e, post, by rw [h1]; rfl, ?_, h3⟩
          intro b hb
          rcases List.mem_cons.mp hb with rfl | hb
          · refine ⟨er, ha, ?_⟩
            cases hq : er.priority with
            | normal => rfl
            | critical => exact absurd hq hp
          · exact h2 b hb
      | panic => rw [ha] at h; cases h
      | diverge => rw [ha] at h; cases h
    · rintro ⟨pre, e, post, h1, h2, h3⟩
      cases pre with
      | nil =>
        simp only [List.nil_append, List.cons.injEq] at h1
        rw [h1.1, h3]
      | cons b pre =>
        simp only [List.cons_append, List.cons.injEq] at h1
        obtain ⟨er, h4, h5⟩ := h2 b (by simp)
        rw [h1.1, h4]
        simp only
        rw [if_neg (by rw [h5]; simp)]
        exact (ih _).2 ⟨pre, e, post, h1.2, fun c hc => h2 c (by simp [hc]), h3⟩

/-- **C05**: a choice succeeds exactly when some alternative succeeds after all the earlier ones have
failed with ordinary errors, and its result (position and nodes) is that alternative's. -/
theorem C05_choice_commits_to_first_match {R : SetOfRules} {st st' : Status} {es : List Expr}
    {ns : List Node} : runExpr R st (.or es) = .ok (st', ns) ↔
      ∃ pre e post, es = pre ++ e :: post ∧ (∀ a ∈ pre, Fails R st a) ∧
        runExpr R st e = .ok (st', ns) := by
  rw [runExpr_or]; exact runOr_ok R st _ es none

/-- **C05**: what follows the chosen alternative has no influence. -/
theorem C05_later_alternatives_are_irrelevant {R : SetOfRules} {st : Status} {pre post post' : List Expr}
    {e : Expr} {x} (hp : ∀ a ∈ pre, Fails R st a) (he : runExpr R st e = .ok x) :
    runExpr R st (.or (pre ++ e :: post)) = .ok x ∧ runExpr R st (.or (pre ++ e :: post')) = .ok x :=
  ⟨C05_choice_commits_to_first_match.2 ⟨pre, e, post, rfl, hp, he⟩,
   C05_choice_commits_to_first_match.2 ⟨pre, e, post', rfl, hp, he⟩⟩

theorem runOr_normal {R : SetOfRules} {st : Status} : ∀ {es acc er}, runOr R st es acc = .err er →
    er.priority = .normal → ∀ a ∈ es, Fails R st a := by
  intro es
  induction es with
  | nil => intro acc er _ _ a ha; cases ha
  | cons e es ih =>
    intro acc er h hp a ha
    rw [runOr_cons] at h
    cases he : runExpr R st e with
    | ok y => rw [he] at h; cases h
    | err er' =>
      rw [he] at h
      simp only at h
      by_cases hc : er'.priority = .critical
      · rw [if_pos hc] at h; cases h; rw [hc] at hp; cases hp
      · rw [if_neg hc] at h
        rcases List.mem_cons.mp ha with rfl | ha
        · refine ⟨er', he, ?_⟩
          cases hq : er'.priority with
          | normal => rfl
          | critical => exact absurd hq hc
        · exact ih h hp a ha
    | panic => rw [he] at h; cases h
    | diverge => rw [he] at h; cases h

/-- **C05**: a choice fails (ordinarily) exactly when all its alternatives do. -/
theorem C05_choice_fails_iff_all_fail {R : SetOfRules} {s : Str} {st : Status} {es : List Expr}
    (ha : Ascii s) (hI : Inv s st) : Fails R st (.or es) ↔ ∀ e ∈ es, Fails R st e := by
  constructor
  · rintro ⟨er, h1, h2⟩
    rw [runExpr_or] at h1
    exact runOr_normal h1 h2
  · intro h
    by_cases hne : es = []
    · subst hne
      obtain ⟨er, h1, _, h3⟩ := C20_empty_choice (R := R) ha hI
      exact ⟨er, h1, h3⟩
    · have : ∃ errs, List.Forall₂ (fun e er => runExpr R st e = .err er ∧ er.priority = .normal)
          es errs := by
        clear hne
        induction es with
        | nil => exact ⟨[], .nil⟩
        | cons e es ih =>
          obtain ⟨er, h1, h2⟩ := h e (by simp)
          obtain ⟨errs, h3⟩ := ih (fun e he => h e (by simp [he]))
          exact ⟨er :: errs, .cons ⟨h1, h2⟩ h3⟩
      obtain ⟨errs, hf⟩ := this
      obtain ⟨pre, er, post, h1, h2, _⟩ := C20_failed_choice_reports_deepest hne hf
      refine ⟨er, h2, ?_⟩
      clear h2 hne h
      have hm : er ∈ errs := by rw [h1]; simp
      clear h1
      induction hf with
      | nil => cases hm
      | cons h _ ih =>
        rcases List.mem_cons.mp hm with rfl | hm
        · exact h.2
        · exact ih hm

/-- non-trivial case: second of three alternatives, in the middle of a text -/
example : runExpr SetOfRules.empty (Status.init c!"bz")
    (.or [.simple (.literal c!"a"), .simple (.literal c!"b"), .simple .dot]) =
    .ok (⟨c!"bz", c!"z", ⟨1, 0, 1, 0⟩, none, false, []⟩, [.val c!"b"]) := by
  refine C05_choice_commits_to_first_match.2 ⟨[_], _, _, rfl, ?_, by rw [runExpr_simple]; rfl⟩
  intro a h
  simp only [List.mem_singleton] at h
  subst h
  exact ⟨⟨⟨1, 0, 1, 0⟩, .literal c!"a", c!"b", c!"z", [], .normal⟩, by rw [runExpr_simple]; rfl, rfl⟩

/-! ### C08 -/

/-- `Seq R st es st' ns`: the expressions match one after the other, from `st` to `st'`, each starting
where the previous one ended, with nodes `ns`. -/
inductive Seq (R : SetOfRules) : Status → List Expr → Status → List Node → Prop
  | nil (st) : Seq R st [] st []
  | cons {st st1 st' e es ns ns'} : runExpr R st e = .ok (st1, ns) → Seq R st1 es st' ns' →
      Seq R st (e :: es) st' (ns ++ ns')

theorem runAnd_ok (R : SetOfRules) : ∀ es st acc st' ns, runAnd R st es acc = .ok (st', ns) ↔
    ∃ ns', ns = acc ++ ns' ∧ Seq R st es st' ns' := by
  intro es
  induction es with
  | nil =>
    intro st acc st' ns
    rw [runAnd_nil]
    constructor
    · intro h; cases h; exact ⟨[], by simp, .nil _⟩
    · rintro ⟨ns', h1, h2⟩; cases h2; simp [h1]
  | cons e es ih =>
    intro st acc st' ns
    rw [runAnd_cons]
    constructor
    · intro h
      cases he : runExpr R st e with
      | ok y =>
        obtain ⟨st1, vn⟩ := y
        rw [he] at h
        obtain ⟨ns', h1, h2⟩ := (ih _ _ _ _).1 h
        exact ⟨vn ++ ns', by rw [h1, List.append_assoc], .cons he h2⟩
      | err er => rw [he] at h; cases h
      | panic => rw [he] at h; cases h
      | diverge => rw [he] at h; cases h
    · rintro ⟨ns', h1, h2⟩
      cases h2 with
      | cons h3 h4 =>
        rw [h3]
        exact (ih _ _ _ _).2 ⟨_, by rw [h1, List.append_assoc], h4⟩

/-- **C08**: a sequence succeeds exactly when its parts match one after the other, and its nodes are the
concatenation of theirs. -/
theorem C08_sequence_ok {R : SetOfRules} {st st' : Status} {es : List Expr} {ns : List Node} :
    runExpr R st (.and es) = .ok (st', ns) ↔ Seq R st es st' ns := by
  rw [runExpr_and, runAnd_ok]
  simp

theorem runAnd_err (R : SetOfRules) : ∀ es st acc er, runAnd R st es acc = .err er ↔
    ∃ pre e post st1 ns, es = pre ++ e :: post ∧ Seq R st pre st1 ns ∧ runExpr R st1 e = .err er := by
  intro es
  induction es with
  | nil =>
    intro st acc er
    rw [runAnd_nil]
    constructor
    · intro h; cases h
    · rintro ⟨pre, e, post, st1, ns, h, _⟩; simp at h
  | cons a es ih =>
    intro st acc er
    rw [runAnd_cons]
    constructor
    · intro h
      cases ha : runExpr R st a with
      | ok y =>
        obtain ⟨st1, vn⟩ := y
        rw [ha] at h
        obtain ⟨pre, e, post, st2, ns, h1, h2, h3⟩ := (ih _ _ _).1 h
        exact ⟨a :: pre, e, post, st2, vn ++ ns, by rw [h1]; rfl, .cons ha h2, h3⟩
      | err er' => rw [ha] at h; exact ⟨[], a, es, st, [], rfl, .nil _, by rw [ha]; exact h⟩
      | panic => rw [ha] at h; cases h
      | diverge => rw [ha] at h; cases h
    · rintro ⟨pre, e, post, st1, ns, h1, h2, h3⟩
      cases h2 with
      | nil =>
        simp only [List.nil_append, List.cons.injEq] at h1
        rw [h1.1, h3]
      | cons h4 h5 =>
        simp only [List.cons_append, List.cons.injEq] at h1
        rw [h1.1, h4]
        exact (ih _ _ _).2 ⟨_, e, post, st1, _, h1.2, h5, h3⟩

/-- **C08**: a sequence fails exactly when one of its parts fails after the earlier ones have matched, and
its error is that part's. -/
theorem C08_sequence_err {R : SetOfRules} {st : Status} {es : List Expr} {er : Error} :
    runExpr R st (.and es) = .err er ↔
    ∃ pre e post st1 ns, es = pre ++ e :: post ∧ Seq R st pre st1 ns ∧ runExpr R st1 e = .err er := by
  rw [runExpr_and, runAnd_err]

/-- A successful match consumes a prefix of what was left to read. -/
theorem runExpr_consumes {R : SetOfRules} {st st' : Status} {e : Expr} {ns : List Node}
    (h : runExpr R st e = .ok (st', ns)) : ∃ piece, st.itParsing = piece ++ st'.itParsing := by
  have H : Preserved R (fun _ => True) (fun st' => ∃ piece, st.itParsing = piece ++ st'.itParsing)
      (fun _ => True) True :=
    { get := by
        intro a b c h hg
        obtain ⟨p, hp⟩ := h
        refine ⟨p ++ [c], ?_⟩
        rw [hp, (getChar_ok hg).1]; simp
      push := fun h _ _ => h
      pot := fun h _ _ => h
      err := fun _ _ _ => trivial
      pan := fun _ _ _ => trivial }
  have := good_runExpr H (fun _ _ _ _ _ => trivial) (st := st) (e := e) ⟨[], rfl⟩ (fun _ _ => trivial)
  rw [h] at this
  exact this

/-- **C08**: the pieces matched by the parts of a sequence are contiguous: each part starts where the one before it ended and takes its
piece, and together the pieces are exactly the text consumed by the sequence. -/
theorem C08_pieces_are_contiguous {R : SetOfRules} {st st' : Status} {es : List Expr} {ns : List Node}
    (h : Seq R st es st' ns) : ∃ pieces : List Str, pieces.length = es.length ∧
      st.itParsing = pieces.flatten ++ st'.itParsing ∧
      ∀ i e, es[i]? = some e → ∃ st1 st2 ns1, runExpr R st1 e = .ok (st2, ns1) ∧
        st1.itParsing = (pieces.drop i).flatten ++ st'.itParsing ∧
        st2.itParsing = (pieces.drop (i + 1)).flatten ++ st'.itParsing := by
  induction h with
  | nil st => exact ⟨[], rfl, rfl, fun i e h => by simp at h⟩
  | cons h1 _ ih =>
    obtain ⟨ps, h3, h4, h5⟩ := ih
    obtain ⟨p, hp⟩ := runExpr_consumes h1
    refine ⟨p :: ps, by simp [h3], by rw [hp, h4]; simp, fun i e he => ?_⟩
    cases i with
    | zero =>
      simp only [List.getElem?_cons_zero, Option.some.injEq] at he
      subst he
      exact ⟨_, _, _, h1, by rw [hp, h4]; simp, by rw [h4]; simp⟩
    | succ i => exact h5 i e (by simpa using he)

example : Seq SetOfRules.empty (Status.init c!"abz") [.simple (.literal c!"a"), .simple .dot]
    ⟨c!"abz", c!"z", ⟨2, 0, 2, 0⟩, none, false, []⟩ [.val c!"a", .val c!"b"] :=
  .cons (ns := [_]) (st1 := ⟨c!"abz", c!"bz", ⟨1, 0, 1, 0⟩, none, false, []⟩)
    (by rw [runExpr_simple]; rfl)
    (.cons (ns := [_]) (by rw [runExpr_simple]; rfl) (.nil _))

/-! ### C07 -/

/-- **C07**: a negation succeeds exactly when its expression fails (with any error, also a critical one);
it then leaves the status, hence the position, untouched and yields no nodes. -/
theorem C07_negation_ok {R : SetOfRules} {st st' : Status} {e : Expr} {ns : List Node} :
    runExpr R st (.not e) = .ok (st', ns) ↔ st' = st ∧ ns = [] ∧ ∃ er, runExpr R st e = .err er := by
  rw [runExpr_not]
  constructor
  · intro h
    cases he : runExpr R st e with
    | ok x => rw [he] at h; exact absurd h raise_ok
    | err er => rw [he] at h; cases h; exact ⟨rfl, rfl, er, rfl⟩
    | panic => rw [he] at h; cases h
    | diverge => rw [he] at h; cases h
  · rintro ⟨rfl, rfl, er, he⟩
    rw [he]

/-- **C07**: a negation fails exactly when its expression matches, with an ordinary error located where
the negation started. -/
theorem C07_negation_err {R : SetOfRules} {s : Str} {st : Status} {e : Expr} (ha : Ascii s)
    (hI : Inv s st) : (∃ er, runExpr R st (.not e) = .err er ∧ er.priority = .normal ∧ er.pos = st.pos ∧
        er.descr = .not) ↔ ∃ x, runExpr R st e = .ok x := by
  rw [runExpr_not]
  constructor
  · rintro ⟨er, h, _⟩
    cases he : runExpr R st e with
    | ok x => exact ⟨x, rfl⟩
    | err er => rw [he] at h; cases h
    | panic => rw [he] at h; cases h
    | diverge => rw [he] at h; cases h
  · rintro ⟨x, he⟩
    rw [he]
    obtain ⟨er, h1, h2⟩ := raise_ascii (α := Status × List Node) (d := .not) (p := .normal) ha hI
    obtain ⟨h3, h4, h5, _⟩ := fromStatus_fields h2
    exact ⟨er, h1, h5, h3, h4⟩

/-- `!error("x")` succeeds -/
example : runExpr SetOfRules.empty (Status.init c!"abz") (.not (.simple (.error c!"x"))) =
    .ok (Status.init c!"abz", []) :=
  C07_negation_ok.2 ⟨rfl, rfl, ⟨⟨0, 0, 0, 0⟩, .custom c!"x", [], c!"abz", [], .critical⟩,
    by rw [runExpr_simple]; rfl⟩

/-! ### C06 -/

/-- `Iter R e st k st' ns`: `e` matches `k` times in a row, from `st` to `st'`, with nodes `ns`. -/
inductive Iter (R : SetOfRules) (e : Expr) : Status → Nat → Status → List Node → Prop
  | zero (st) : Iter R e st 0 st []
  | succ {st st1 st' k ns ns'} : runExpr R st e = .ok (st1, ns) → Iter R e st1 k st' ns' →
      Iter R e st (k + 1) st' (ns ++ ns')

/-- How a greedy repetition with these bounds ends after `k` matches: the upper bound is reached or the
next match fails ordinarily. -/
def RepEnds (R : SetOfRules) (e : Expr) (mx : Option Nat) (k : Nat) (st st' : Status) : Prop :=
  (mx = some k ∧ st' = st) ∨
  ((∀ m, mx = some m → k < m) ∧ ∃ er, runExpr R st e = .err er ∧ er.priority = .normal ∧
    st' = st.setPotentialError er)

theorem rep_limit {R e} {mn : Nat} {mx : Option Nat} {st : Status} {k acc x}
    (h : runRepeat R e mn mx st k acc = x) (hd : x ≠ .diverge) :
    ∃ f, parseRepeat R f e mn mx st k acc = x := limit_ne h hd

theorem runRepeat_ok_fuel (R : SetOfRules) (e : Expr) (mn : Nat) (mx : Option Nat) : ∀ f st k acc st' ns,
    (∀ m, mx = some m → k < m ∧ mn ≤ m) →
    parseRepeat R f e mn mx st k acc = .ok (st', ns) →
    ∃ j st1 ns', mn ≤ k + j ∧ Iter R e st j st1 ns' ∧ ns = acc ++ ns' ∧ RepEnds R e mx (k + j) st1 st' := by
  intro f
  induction f with
  | zero => intro st k acc st' ns _ h; simp [parseRepeat] at h
  | succ f ih =>
    intro st k acc st' ns hb h
    have hstep : runRepeat R e mn mx st k acc = .ok (st', ns) :=
      limit_of (chain_rep R e mn mx st k acc) h (by simp)
    rw [runRepeat_eq] at hstep
    rw [parseRepeat] at h
    cases he : parseExpr R f st e with
    | ok x =>
      obtain ⟨st1, vn⟩ := x
      rw [he] at h
      have hr : runExpr R st e = .ok (st1, vn) := runExpr_of he (by simp)
      simp only at h
      by_cases ht : touchMaxBound mx k = true
      · rw [if_pos ht] at h
        cases h
        have hmx : mx = some (k + 1) := by
          cases mx with
          | none => simp [touchMaxBound] at ht
          | some m => simp [touchMaxBound] at ht; rw [ht]
        refine ⟨1, st', vn, ?_, ?_, rfl, Or.inl ⟨hmx, rfl⟩⟩
        · exact (hb _ hmx).2
        · have := Iter.succ hr (Iter.zero (R := R) (e := e) st')
          rwa [List.append_nil] at this
      · rw [if_neg ht] at h
        have hb' : ∀ m, mx = some m → k + 1 < m ∧ mn ≤ m := by
          intro m hm
          refine ⟨?_, (hb m hm).2⟩
          have := (hb m hm).1
          subst hm
          simp [touchMaxBound] at ht
          omega
        obtain ⟨j, st2, ns', h1, h2, h3, h4⟩ := ih st1 (k + 1) _ st' ns hb' h
        refine ⟨j + 1, st2, vn ++ ns', by omega, .succ hr h2, by rw [h3, List.append_assoc], ?_⟩
        rw [show k + (j + 1) = k + 1 + j by omega]; exact h4
    | err er =>
      have hr : runExpr R st e = .err er := runExpr_of he (by simp)
      rw [he] at h
      simp only at h
      by_cases hm : bigMinBound mn k = true
      · rw [if_pos hm] at h
        by_cases hc : er.priority = .critical
        · rw [if_pos hc] at h; cases h
        · rw [if_neg hc] at h
          cases h
          refine ⟨0, st, [], by simpa [bigMinBound] using hm, .zero _, by simp, Or.inr ⟨fun m hm => (hb m hm).1, er, hr, ?_, rfl⟩⟩
          cases hq : er.priority with
          | normal => rfl
          | critical => exact absurd hq hc
      · rw [if_neg hm] at h; cases h
    | panic => rw [he] at h; cases h
    | diverge => rw [he] at h; cases h

theorem runRepeat_of_iter {R : SetOfRules} {e : Expr} {mn : Nat} {mx : Option Nat} {st1 : Status} :
    ∀ {st j ns'}, Iter R e st j st1 ns' → ∀ {k acc}, (∀ m, mx = some m → k + j ≤ m) →
      runRepeat R e mn mx st k acc =
        if mx = some (k + j) ∧ 0 < j then .ok (st1, acc ++ ns')
        else runRepeat R e mn mx st1 (k + j) (acc ++ ns') := by
  intro st j ns' h
  induction h with
  | zero st => intro k acc _; simp
  | @succ st st2 st' j ns ns' h1 h2 ih =>
    intro k acc hb
    rw [runRepeat_eq, h1]
    simp only
    by_cases hm : mx = some (k + 1)
    · rw [if_pos hm]
      have := hb _ hm
      have hj : j = 0 := by omega
      subst hj
      cases h2
      rw [if_pos ⟨by rw [hm], by omega⟩]; simp
    · rw [if_neg hm]
      rw [ih (k := k + 1) (acc := acc ++ ns) (fun m hmm => by have := hb m hmm; omega)]
      rw [show k + 1 + j = k + (j + 1) by omega, List.append_assoc]
      by_cases hm2 : mx = some (k + (j + 1))
      · have hj : 0 < j := by
          rcases Nat.eq_zero_or_pos j with h0 | h0
          · subst h0; exact absurd hm2 hm
          · exact h0
        rw [if_pos ⟨hm2, hj⟩, if_pos ⟨hm2, by omega⟩]
      · rw [if_neg (fun h => hm2 h.1), if_neg (fun h => hm2 h.1)]

/-- **C06**: with satisfiable bounds, a repetition succeeds exactly with the greatest possible number of
consecutive matches: `k` of them, at least `mn`, and either `k` is the upper bound or it is below it and no
further match is possible. Its nodes are those of the matches, in order. -/
theorem C06_repetition_ok {R : SetOfRules} {st st' : Status} {e : Expr} {mn : Nat} {mx : Option Nat}
    {ns : List Node} (hb : ∀ m, mx = some m → 1 ≤ m ∧ mn ≤ m) :
    runExpr R st (.rep e mn mx) = .ok (st', ns) ↔
    ∃ k st1, mn ≤ k ∧ Iter R e st k st1 ns ∧ RepEnds R e mx k st1 st' := by
  rw [runExpr_rep]
  constructor
  · intro h
    obtain ⟨f, hf⟩ := rep_limit h (by simp)
    obtain ⟨j, st1, ns', h1, h2, h3, h4⟩ := runRepeat_ok_fuel R e mn mx f st 0 [] st' ns
      (fun m hm => ⟨(hb m hm).1, (hb m hm).2⟩) hf
    simp only [Nat.zero_add, List.nil_append] at h1 h3 h4
    subst h3
    exact ⟨j, st1, h1, h2, h4⟩
  · rintro ⟨k, st1, h1, h2, h3⟩
    have hk : ∀ m, mx = some m → 0 + k ≤ m := by
      intro m hm
      rcases h3 with ⟨h4, _⟩ | ⟨h4, _⟩
      · rw [h4, Option.some.injEq] at hm; omega
      · have := h4 m hm; omega
    rw [runRepeat_of_iter h2 hk]
    simp only [Nat.zero_add, List.nil_append]
    rcases h3 with ⟨h4, rfl⟩ | ⟨h4, er, h5, h6, rfl⟩
    · rw [if_pos ⟨h4, (hb _ h4).1⟩]
    · rw [if_neg (fun hh => by have := h4 _ hh.1; omega), runRepeat_eq, h5]
      simp only
      rw [if_pos h1, if_neg (by rw [h6]; simp)]

theorem runRepeat_err_fuel (R : SetOfRules) (e : Expr) (mn : Nat) (mx : Option Nat) : ∀ f st k acc er,
    (∀ m, mx = some m → k < m) →
    parseRepeat R f e mn mx st k acc = .err er →
    ∃ j st1 ns, Iter R e st j st1 ns ∧ (∀ m, mx = some m → k + j < m) ∧ runExpr R st1 e = .err er ∧
      (k + j < mn ∨ er.priority = .critical) := by
  intro f
  induction f with
  | zero => intro st k acc er _ h; simp [parseRepeat] at h
  | succ f ih =>
    intro st k acc er hb h
    rw [parseRepeat] at h
    cases he : parseExpr R f st e with
    | ok x =>
      obtain ⟨st1, vn⟩ := x
      have hr : runExpr R st e = .ok (st1, vn) := runExpr_of he (by simp)
      rw [he] at h
      simp only at h
      by_cases ht : touchMaxBound mx k = true
      · rw [if_pos ht] at h; cases h
      · rw [if_neg ht] at h
        have hb' : ∀ m, mx = some m → k + 1 < m := by
          intro m hm
          have := hb m hm
          subst hm
          simp [touchMaxBound] at ht
          omega
        obtain ⟨j, st2, ns, h1, h2, h3, h4⟩ := ih st1 (k + 1) _ er hb' h
        exact ⟨j + 1, st2, vn ++ ns, .succ hr h1, fun m hm => by have := h2 m hm; omega, h3, by
          rw [show k + (j + 1) = k + 1 + j by omega]; exact h4⟩
    | err er' =>
      have hr : runExpr R st e = .err er' := runExpr_of he (by simp)
      rw [he] at h
      simp only at h
      by_cases hm : bigMinBound mn k = true
      · rw [if_pos hm] at h
        by_cases hc : er'.priority = .critical
        · rw [if_pos hc] at h; cases h
          exact ⟨0, st, [], .zero _, fun m hm => by have := hb m hm; omega, hr, Or.inr hc⟩
        · rw [if_neg hc] at h; cases h
      · rw [if_neg hm] at h; cases h
        exact ⟨0, st, [], .zero _, fun m hm => by have := hb m hm; omega, hr, Or.inl (by
          simpa [bigMinBound] using hm)⟩
    | panic => rw [he] at h; cases h
    | diverge => rw [he] at h; cases h

/-- **C06**: with satisfiable bounds, a repetition fails exactly when a match fails before the upper
bound, either with fewer than `mn` matches done or with a critical error; its error is that match's. -/
theorem C06_repetition_err {R : SetOfRules} {st : Status} {e : Expr} {mn : Nat} {mx : Option Nat}
    {er : Error} (hb : ∀ m, mx = some m → 1 ≤ m ∧ mn ≤ m) :
    runExpr R st (.rep e mn mx) = .err er ↔
    ∃ k st1 ns, Iter R e st k st1 ns ∧ (∀ m, mx = some m → k < m) ∧ runExpr R st1 e = .err er ∧
      (k < mn ∨ er.priority = .critical) := by
  rw [runExpr_rep]
  constructor
  · intro h
    obtain ⟨f, hf⟩ := rep_limit h (by simp)
    have := runRepeat_err_fuel R e mn mx f st 0 [] er (fun m hm => (hb m hm).1) hf
    simpa using this
  · rintro ⟨k, st1, ns, h1, h2, h3, h4⟩
    rw [runRepeat_of_iter h1 (fun m hm => by have := h2 m hm; omega)]
    simp only [Nat.zero_add, List.nil_append]
    rw [if_neg (fun hh => by have := h2 _ hh.1; omega), runRepeat_eq, h3]
    simp only
    by_cases hm : mn ≤ k
    · rw [if_pos hm]
      rcases h4 with h4 | h4
      · omega
      · rw [if_pos h4]
    · rw [if_neg hm]

/-- **C06** for an upper bound of 0: it is no bound at all. -/
theorem C06_max_zero_is_unbounded (R : SetOfRules) (st : Status) (e : Expr) (mn : Nat) :
    runExpr R st (.rep e mn (some 0)) = runExpr R st (.rep e mn none) := by
  have : ∀ f st k acc, parseRepeat R f e mn (some 0) st k acc = parseRepeat R f e mn none st k acc := by
    intro f
    induction f with
    | zero => intro st k acc; simp [parseRepeat]
    | succ f ih =>
      intro st k acc
      rw [parseRepeat, parseRepeat]
      cases parseExpr R f st e with
      | ok x => simp only [touchMaxBound, ih]; simp
      | _ => rfl
  rw [runExpr_rep, runExpr_rep]
  unfold runRepeat
  simp only [this]

/-- **C06** for an upper bound below the lower one: the lower bound is ignored, the upper bound is the
exact number of matches required. -/
theorem C06_max_below_min {R : SetOfRules} {st : Status} {e : Expr} {mn m : Nat} (h1 : 1 ≤ m) (h2 : m < mn) :
    runExpr R st (.rep e mn (some m)) = runExpr R st (.rep e m (some m)) := by
  have : ∀ f st k acc, k < m →
      parseRepeat R f e mn (some m) st k acc = parseRepeat R f e m (some m) st k acc := by
    intro f
    induction f with
    | zero => intro st k acc _; simp [parseRepeat]
    | succ f ih =>
      intro st k acc hk
      rw [parseRepeat, parseRepeat]
      cases parseExpr R f st e with
      | ok x =>
        simp only
        by_cases ht : touchMaxBound (some m) k = true
        · rw [if_pos ht, if_pos ht]
        · rw [if_neg ht, if_neg ht]
          refine ih _ _ _ ?_
          simp [touchMaxBound] at ht
          omega
      | err er =>
        have a : bigMinBound mn k = false := by simp [bigMinBound]; omega
        have b : bigMinBound m k = false := by simp [bigMinBound]; omega
        simp only [a, b]
      | _ => rfl
  rw [runExpr_rep, runExpr_rep]
  unfold runRepeat
  simp only [fun f => this f st 0 [] (by omega)]

/-- **C06** taken literally (bounds always enforced) is false: a repetition with bounds 0 and 0 can match
twice, and one with bounds 3 and 2 succeeds with two matches. -/
theorem C06_bounds_false :
    (∃ st st', runExpr SetOfRules.empty st (.rep (.simple (.literal c!"a")) 0 (some 0)) =
      .ok (st', [.val c!"a", .val c!"a"])) ∧
    (∃ st st', runExpr SetOfRules.empty st (.rep (.simple (.literal c!"a")) 3 (some 2)) =
      .ok (st', [.val c!"a", .val c!"a"])) := by
  refine ⟨⟨Status.init c!"aa",
      ⟨c!"aa", [], ⟨2, 0, 2, 0⟩, some ⟨⟨2, 0, 2, 0⟩, .literal c!"a", c!"aa", [], [], .normal⟩, false, []⟩,
      runExpr_of (f := 8) (by decide +kernel) (by simp)⟩,
    ⟨Status.init c!"aa", ⟨c!"aa", [], ⟨2, 0, 2, 0⟩, none, false, []⟩,
      runExpr_of (f := 8) (by decide +kernel) (by simp)⟩⟩

/-- three of four possible matches, because of the upper bound -/
example : runExpr SetOfRules.empty (Status.init c!"aaaa") (.rep (.simple .dot) 1 (some 3)) =
    .ok (⟨c!"aaaa", c!"a", ⟨3, 0, 3, 0⟩, none, false, []⟩, [.val c!"a", .val c!"a", .val c!"a"]) :=
  (C06_repetition_ok (by simp)).2 ⟨3, _, by omega,
    .succ (ns := [_]) (st1 := ⟨c!"aaaa", c!"aaa", ⟨1, 0, 1, 0⟩, none, false, []⟩)
      (by rw [runExpr_simple]; rfl) (.succ (ns := [_])
      (st1 := ⟨c!"aaaa", c!"aa", ⟨2, 0, 2, 0⟩, none, false, []⟩)
      (by rw [runExpr_simple]; rfl) (.succ (ns := [_]) (by rw [runExpr_simple]; rfl) (.zero _))),
    Or.inl ⟨rfl, rfl⟩⟩

end DP
