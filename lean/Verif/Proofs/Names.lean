/-
Counting the names written does not disturb the parser; how many they are at most; and `parse_debug` makes the calls of `parse`.
-/
import Verif.Model.Names
import Verif.Proofs.Meter
import Verif.Props.Rules

namespace DP
open Spec

variable (R : SetOfRules)

/-- Without the count these are the parsing functions. -/
theorem names_erase : ∀ f,
    (∀ st n, (namesRuleName R f st n).1 = parseRuleName R f st n) ∧
    (∀ st e, (namesExpr R f st e).1 = parseExpr R f st e) ∧
    (∀ st es acc, (namesAnd R f st es acc).1 = parseAnd R f st es acc) ∧
    (∀ st es acc, (namesOr R f st es acc).1 = parseOr R f st es acc) ∧
    (∀ e mn mx st k acc, (namesRepeat R f e mn mx st k acc).1 = parseRepeat R f e mn mx st k acc) := by
  intro f
  induction f with
  | zero =>
    refine ⟨?_, ?_, ?_, ?_, ?_⟩ <;> intros
    · rw [namesRuleName, parseRuleName]
    · rw [namesExpr, parseExpr]
    · rw [namesAnd, parseAnd]
    · rw [namesOr, parseOr]
    · rw [namesRepeat, parseRepeat]
  | succ f ih =>
    obtain ⟨ih1, ih2, ih3, ih4, ih5⟩ := ih
    refine ⟨?_, ?_, ?_, ?_, ?_⟩
    · intro st n
      rw [namesRuleName, parseRuleName]
      cases R.get n with
      | none => rfl
      | some e =>
        simp only
        rw [← ih2]
        rcases namesExpr R f _ e with ⟨x | x | _ | _, m⟩ <;> rfl
    · intro st e
      cases e with
      | simple a => rw [namesExpr, parseExpr]
      | and es => rw [namesExpr, parseExpr, ← ih3]
      | or es => rw [namesExpr, parseExpr, ← ih4]
      | not e =>
        rw [namesExpr, parseExpr, ← ih2]
        rcases namesExpr R f st e with ⟨x | x | _ | _, m⟩ <;> rfl
      | rep e mn mx => rw [namesExpr, parseExpr, ← ih5]
      | ruleName n =>
        rw [namesExpr, parseExpr, ← ih1]
        rcases namesRuleName R f st n with ⟨x | x | _ | _, m⟩ <;> rfl
    · intro st es acc
      cases es with
      | nil => rw [namesAnd, parseAnd]
      | cons e es =>
        rw [namesAnd, parseAnd, ← ih2]
        rcases namesExpr R f st e with ⟨x | x | _ | _, m⟩
        · exact ih3 _ _ _
        all_goals rfl
    · intro st es acc
      cases es with
      | nil => cases acc <;> rw [namesOr, parseOr]
      | cons e es =>
        rw [namesOr, parseOr, ← ih2]
        rcases namesExpr R f st e with ⟨x | x | _ | _, m⟩
        · rfl
        · simp only
          split
          · rfl
          · exact ih4 _ _ _
        all_goals rfl
    · intro e mn mx st k acc
      rw [namesRepeat, parseRepeat, ← ih2]
      rcases namesExpr R f st e with ⟨x | x | _ | _, m⟩
      · simp only
        split
        · rfl
        · exact ih5 _ _ _ _ _ _
      · simp only
        split
        · split <;> rfl
        · rfl
      all_goals rfl

/-- finished, or not at all -/
def NLe {α : Type} (x y : Out Error α × Nat) : Prop := x.1 = .diverge ∨ x = y

/-- One more unit of fuel does not change what a finished run has written. -/
theorem names_step : ∀ f,
    (∀ st n, NLe (namesRuleName R f st n) (namesRuleName R (f+1) st n)) ∧
    (∀ st e, NLe (namesExpr R f st e) (namesExpr R (f+1) st e)) ∧
    (∀ st es acc, NLe (namesAnd R f st es acc) (namesAnd R (f+1) st es acc)) ∧
    (∀ st es acc, NLe (namesOr R f st es acc) (namesOr R (f+1) st es acc)) ∧
    (∀ e mn mx st k acc, NLe (namesRepeat R f e mn mx st k acc) (namesRepeat R (f+1) e mn mx st k acc)) := by
  intro f
  induction f with
  | zero =>
    refine ⟨?_, ?_, ?_, ?_, ?_⟩ <;> intros <;> left
    · rw [namesRuleName]
    · rw [namesExpr]
    · rw [namesAnd]
    · rw [namesOr]
    · rw [namesRepeat]
  | succ f ih =>
    obtain ⟨ih1, ih2, ih3, ih4, ih5⟩ := ih
    refine ⟨?_, ?_, ?_, ?_, ?_⟩
    · intro st n
      rw [namesRuleName, namesRuleName]
      cases R.get n with
      | none => exact Or.inr rfl
      | some e =>
        simp only
        rcases ih2 (if st.traceRules = true then st.pushRule (c!"r:" ++ n) else st) e with h | h
        · left
          generalize namesExpr R f (if st.traceRules = true then st.pushRule (c!"r:" ++ n) else st) e = x at h ⊢
          obtain ⟨x, m⟩ := x; simp only at h; subst h; rfl
        · right; rw [h]
    · intro st e
      cases e with
      | simple a => right; rw [namesExpr, namesExpr]
      | and es =>
        rw [namesExpr, namesExpr]
        rcases ih3 st es [] with h | h
        · exact Or.inl h
        · right; rw [h]
      | or es =>
        rw [namesExpr, namesExpr]
        rcases ih4 st es none with h | h
        · exact Or.inl h
        · right; rw [h]
      | not e =>
        rw [namesExpr, namesExpr]
        rcases ih2 st e with h | h
        · left
          generalize namesExpr R f st e = x at h ⊢
          obtain ⟨x, m⟩ := x; simp only at h; subst h; rfl
        · right; rw [h]
      | rep e mn mx =>
        rw [namesExpr, namesExpr]
        rcases ih5 e mn mx st 0 [] with h | h
        · exact Or.inl h
        · right; rw [h]
      | ruleName n =>
        rw [namesExpr, namesExpr]
        rcases ih1 st n with h | h
        · left
          generalize namesRuleName R f st n = x at h ⊢
          obtain ⟨x, m⟩ := x; simp only at h; subst h; rfl
        · right; rw [h]
    · intro st es acc
      cases es with
      | nil => right; rw [namesAnd, namesAnd]
      | cons e es =>
        rw [namesAnd, namesAnd]
        rcases ih2 st e with h | h
        · left
          generalize namesExpr R f st e = x at h ⊢
          obtain ⟨x, m⟩ := x; simp only at h; subst h; rfl
        · rw [← h]
          rcases namesExpr R f st e with ⟨x | x | _ | _, m⟩
          · rcases ih3 x.1 es (acc ++ x.2) with h | h
            · exact Or.inl h
            · right; simp only; rw [h]
          all_goals exact Or.inr rfl
    · intro st es acc
      cases es with
      | nil => right; cases acc <;> rw [namesOr, namesOr]
      | cons e es =>
        rw [namesOr, namesOr]
        rcases ih2 st e with h | h
        · left
          generalize namesExpr R f st e = x at h ⊢
          obtain ⟨x, m⟩ := x; simp only at h; subst h; rfl
        · rw [← h]
          rcases namesExpr R f st e with ⟨x | x | _ | _, m⟩
          · exact Or.inr rfl
          · simp only
            split
            · exact Or.inr rfl
            · rcases ih4 st es (deepErr acc x) with h | h
              · exact Or.inl h
              · right; rw [h]
          all_goals exact Or.inr rfl
    · intro e mn mx st k acc
      rw [namesRepeat, namesRepeat]
      rcases ih2 st e with h | h
      · left
        generalize namesExpr R f st e = x at h ⊢
        obtain ⟨x, m⟩ := x; simp only at h; subst h; rfl
      · rw [← h]
        rcases namesExpr R f st e with ⟨x | x | _ | _, m⟩
        · simp only
          split
          · exact Or.inr rfl
          · rcases ih5 e mn mx x.1 (k + 1) (acc ++ x.2) with h | h
            · exact Or.inl h
            · right; rw [h]
        all_goals exact Or.inr rfl

theorem names_mono {f g : Nat} (h : f ≤ g) {st n} (hd : parseRuleName R f st n ≠ .diverge) :
    namesRuleName R g st n = namesRuleName R f st n := by
  induction h with
  | refl => rfl
  | @step g _ ih =>
    have hd' : (namesRuleName R g st n).1 ≠ .diverge := by rw [ih, (names_erase R f).1]; exact hd
    rcases (names_step R g).1 st n with h | h
    · exact absurd h hd'
    · rw [← h, ih]

/-! ### With and without the trace -/

/-- with the trace the calls are the same -/
theorem untraced_meter : ∀ f,
    (∀ st n, (meterRuleName R f (untraced st) n).2 = (meterRuleName R f st n).2) ∧
    (∀ st e, (meterExpr R f (untraced st) e).2 = (meterExpr R f st e).2) ∧
    (∀ st es acc, (meterAnd R f (untraced st) es acc).2 = (meterAnd R f st es acc).2) ∧
    (∀ st es acc, (meterOr R f (untraced st) es (acc.map forgetTrace)).2 = (meterOr R f st es acc).2) ∧
    (∀ e mn mx st k acc, (meterRepeat R f e mn mx (untraced st) k acc).2 = (meterRepeat R f e mn mx st k acc).2) := by
  intro f
  induction f with
  | zero => simp [meterRuleName, meterExpr, meterAnd, meterOr, meterRepeat]
  | succ f ih =>
    obtain ⟨ih1, ih2, ih3, ih4, ih5⟩ := ih
    have part : ∀ st e, ∃ x m, meterExpr R f st e = (x, m) ∧ meterExpr R f (untraced st) e = (untracedOut x, m) := by
      intro st e
      refine ⟨_, _, rfl, Prod.ext ?_ (ih2 st e)⟩
      rw [(meter_erase R f).2.1, (meter_erase R f).2.1]
      exact (untraced_fuel R f).2.1 st e
    refine ⟨?_, ?_, ?_, ?_, ?_⟩
    · intro st n
      rw [meterRuleName, meterRuleName]
      have h0 : (untraced st).traceRules = false := rfl
      have h1 : untraced st =
          untraced (if st.traceRules = true then st.pushRule (c!"r:" ++ n) else st) := by
        split <;> rfl
      simp only [h0, Bool.false_eq_true, if_false]
      rw [h1]
      generalize (if st.traceRules = true then st.pushRule (c!"r:" ++ n) else st) = st1
      cases hg : R.get n with
      | none => rfl
      | some e =>
        simp only
        obtain ⟨x, m, h2, h3⟩ := part st1 e
        rw [h2, h3]
        cases x <;> rfl
    · intro st e
      cases e with
      | simple a => rw [meterExpr, meterExpr]
      | and es => rw [meterExpr, meterExpr]; exact congrArg Meter.enter (ih3 _ _ _)
      | or es => rw [meterExpr, meterExpr]; exact congrArg Meter.enter (ih4 _ _ none)
      | not e =>
        rw [meterExpr, meterExpr]
        obtain ⟨x, m, h2, h3⟩ := part st e
        rw [h2, h3]
        cases x <;> rfl
      | rep e mn mx => rw [meterExpr, meterExpr]; exact congrArg Meter.enter (ih5 _ _ _ _ _ _)
      | ruleName n =>
        rw [meterExpr, meterExpr]
        have h1 := ih1 st n
        have h2 : (meterRuleName R f (untraced st) n).1 = untracedOut (meterRuleName R f st n).1 := by
          rw [(meter_erase R f).1, (meter_erase R f).1]
          exact (untraced_fuel R f).1 st n
        generalize meterRuleName R f st n = y at h1 h2 ⊢
        generalize meterRuleName R f (untraced st) n = z at h1 h2 ⊢
        obtain ⟨y, m⟩ := y
        obtain ⟨z, m'⟩ := z
        simp only at h1 h2
        subst h1 h2
        cases y <;> rfl
    · intro st es acc
      cases es with
      | nil => rw [meterAnd, meterAnd]
      | cons e es =>
        rw [meterAnd, meterAnd]
        obtain ⟨x, m, h2, h3⟩ := part st e
        rw [h2, h3]
        cases x with
        | ok x => exact congrArg (Meter.andThen m) (ih3 _ _ _)
        | _ => rfl
    · intro st es acc
      cases es with
      | nil => cases acc <;> simp [meterOr]
      | cons e es =>
        rw [meterOr, meterOr]
        obtain ⟨x, m, h2, h3⟩ := part st e
        rw [h2, h3]
        cases x with
        | err er =>
          simp only [untracedOut]
          have : (forgetTrace er).priority = er.priority := rfl
          rw [this]
          split
          · rfl
          · rw [deepErr_untraced]; exact congrArg (Meter.andThen m) (ih4 _ _ _)
        | _ => rfl
    · intro e mn mx st k acc
      rw [meterRepeat, meterRepeat]
      obtain ⟨x, m, h2, h3⟩ := part st e
      rw [h2, h3]
      cases x with
      | ok x =>
        simp only [untracedOut]
        split
        · rfl
        · exact congrArg (Meter.andThen m) (ih5 _ _ _ _ _ _)
      | err er =>
        simp only [untracedOut]
        have : (forgetTrace er).priority = er.priority := rfl
        rw [this]
        split
        · split <;> rfl
        · rfl
      | _ => rfl

/-! ### At most -/

variable {R}

/-- the remembered error lists at most `W` names -/
def PotLe (st : Status) (W : Nat) : Prop := ∀ e, st.potentialError = some e → e.names ≤ W

/-- the status returned lists at most `w` names, and all errors list at most `W` -/
def Listed {α : Type} (w W : Nat) : Out Error (Status × α) → Prop
  | .ok x => x.1.walkingRules.length ≤ w ∧ PotLe x.1 W
  | .err e => e.names ≤ W
  | _ => True

theorem potLe_names {st W} (h : PotLe st W) (hw : st.walkingRules.length ≤ W) : st.names ≤ 2 * W := by
  unfold Status.names
  cases hp : st.potentialError with
  | none => simp only; omega
  | some e => have := h e hp; simp only; omega

theorem fromStatus_names {st d p e} (h : fromStatus st d p = some e) : e.names = st.walkingRules.length := by
  unfold fromStatus at h
  rw [Option.map_eq_some_iff] at h
  obtain ⟨_, _, rfl⟩ := h
  rfl

theorem raise_names {α : Type} {st d p} : namesBuilt (raise st d p : Out Error α) ≤ st.walkingRules.length := by
  unfold raise
  cases hf : fromStatus st d p with
  | none => exact Nat.zero_le _
  | some e => exact Nat.le_of_eq (fromStatus_names hf)

theorem raise_listed {α : Type} {st d p w W} (h : st.walkingRules.length ≤ W) :
    Listed w W (raise st d p : Out Error (Status × α)) := by
  unfold raise
  cases hf : fromStatus st d p with
  | none => trivial
  | some e => exact Nat.le_trans (Nat.le_of_eq (fromStatus_names hf)) h

theorem getChar_lists {st : Status} : match getChar st with
    | .ok (st', _) => st'.walkingRules = st.walkingRules ∧ st'.potentialError = st.potentialError
    | .error st' => st'.walkingRules = st.walkingRules ∧ st'.potentialError = st.potentialError := by
  unfold getChar
  cases st.itParsing <;> exact ⟨rfl, rfl⟩

theorem literalLoop_lists (lit : Str) {W} : ∀ (l : Str) (st : Status), st.walkingRules.length ≤ W →
    match parseLiteralLoop lit st l with
    | .ok st' => st'.walkingRules = st.walkingRules ∧ st'.potentialError = st.potentialError
    | .err e => e.names ≤ W
    | _ => True := by
  intro l
  induction l with
  | nil => intro st _; exact ⟨rfl, rfl⟩
  | cons c l ih =>
    intro st h
    unfold parseLiteralLoop parseChar
    have hg := getChar_lists (st := st)
    have hr : ∀ st' : Status, st'.walkingRules = st.walkingRules →
        match (raise st' (.literal lit) .normal : Out Error Status) with
        | .ok st' => st'.walkingRules = st.walkingRules ∧ st'.potentialError = st.potentialError
        | .err e => e.names ≤ W
        | _ => True := by
      intro st' h'
      unfold raise
      cases hf : fromStatus st' (.literal lit) .normal with
      | none => trivial
      | some e => exact Nat.le_trans (Nat.le_of_eq (fromStatus_names hf)) (h' ▸ h)
    cases hc : getChar st with
    | ok x =>
      obtain ⟨st', got⟩ := x
      rw [hc] at hg
      simp only at hg ⊢
      by_cases he : c = got
      · simp only [if_pos he]
        have := ih st' (hg.1 ▸ h)
        rw [hg.1, hg.2] at this
        exact this
      · simp only [if_neg he]; exact hr st' hg.1
    | error st' =>
      rw [hc] at hg
      exact hr st' hg.1

theorem atom_listed {st : Status} {W a} (hp : PotLe st W) (hw : st.walkingRules.length ≤ W) :
    Listed st.walkingRules.length W (parseAtom st a) := by
  have hg := getChar_lists (st := st)
  have ok : ∀ {st' : Status} {n : Node}, st'.walkingRules = st.walkingRules ∧ st'.potentialError = st.potentialError →
      Listed st.walkingRules.length W (.ok (st', n)) := by
    intro st' n h
    exact ⟨Nat.le_of_eq (congrArg List.length h.1), fun e he => hp e (h.2 ▸ he)⟩
  have bad : ∀ {st' : Status} {d p}, st'.walkingRules = st.walkingRules ∧ st'.potentialError = st.potentialError →
      Listed st.walkingRules.length W (raise st' d p : Out Error (Status × Node)) := by
    intro st' d p h
    exact raise_listed (by rw [h.1]; exact hw)
  cases a with
  | literal l =>
    show Listed _ _ (parseLiteral _ _)
    unfold parseLiteral
    have := literalLoop_lists l l st hw
    cases hl : parseLiteralLoop l st l with
    | ok st' => rw [hl] at this; exact ok this
    | err e => rw [hl] at this; exact this
    | _ => trivial
  | error s => exact bad ⟨rfl, rfl⟩
  | mtch cs rs =>
    show Listed _ _ (parseMatch _ _ _)
    unfold parseMatch
    cases hc : getChar st with
    | ok x =>
      rw [hc] at hg
      simp only
      split
      · exact ok hg
      · exact bad hg
    | error st' => rw [hc] at hg; exact bad hg
  | dot =>
    show Listed _ _ (parseDot _)
    unfold parseDot
    cases hc : getChar st with
    | ok x => rw [hc] at hg; exact ok hg
    | error st' => rw [hc] at hg; exact bad hg
  | eof =>
    show Listed _ _ (parseEof _)
    unfold parseEof
    cases hc : getChar st with
    | ok x => rw [hc] at hg; exact bad hg
    | error st' => rw [hc] at hg; exact ok hg

theorem listed_built {α : Type} {w W} {x : Out Error (Status × α)} (h : Listed w W x) : namesBuilt x ≤ W := by
  cases x with
  | err e => exact h
  | _ => exact Nat.zero_le _

theorem listed_mono {α : Type} {w w' W} {x : Out Error (Status × α)} (h : Listed w W x) (hw : w ≤ w') : Listed w' W x := by
  cases x with
  | ok x => exact ⟨Nat.le_trans h.1 hw, h.2⟩
  | err e => exact h
  | _ => trivial

theorem names_bound : ∀ f W,
    (∀ st n, PotLe st W → (namesRuleName R f st n).1 ≠ .diverge →
      st.walkingRules.length + 1 + (meterRuleName R f st n).2.calls ≤ W →
      (namesRuleName R f st n).2 ≤ 5 * W * (meterRuleName R f st n).2.calls + W + 1 ∧
      Listed (st.walkingRules.length + 1 + (meterRuleName R f st n).2.calls) W (namesRuleName R f st n).1) ∧
    (∀ st e, PotLe st W → (namesExpr R f st e).1 ≠ .diverge →
      st.walkingRules.length + (meterExpr R f st e).2.calls ≤ W →
      (namesExpr R f st e).2 + 2 * W ≤ 5 * W * (meterExpr R f st e).2.calls ∧
      Listed (st.walkingRules.length + (meterExpr R f st e).2.calls) W (namesExpr R f st e).1) ∧
    (∀ st es acc, PotLe st W → (namesAnd R f st es acc).1 ≠ .diverge →
      st.walkingRules.length + (meterAnd R f st es acc).2.calls ≤ W →
      (namesAnd R f st es acc).2 ≤ 5 * W * (meterAnd R f st es acc).2.calls ∧
      Listed (st.walkingRules.length + (meterAnd R f st es acc).2.calls) W (namesAnd R f st es acc).1) ∧
    (∀ st es acc, PotLe st W → (∀ e, acc = some e → e.names ≤ W) → (namesOr R f st es acc).1 ≠ .diverge →
      st.walkingRules.length + (meterOr R f st es acc).2.calls ≤ W →
      (namesOr R f st es acc).2 ≤ 5 * W * (meterOr R f st es acc).2.calls + W ∧
      Listed (st.walkingRules.length + (meterOr R f st es acc).2.calls) W (namesOr R f st es acc).1) ∧
    (∀ e mn mx st k acc, PotLe st W → (namesRepeat R f e mn mx st k acc).1 ≠ .diverge →
      st.walkingRules.length + (meterRepeat R f e mn mx st k acc).2.calls ≤ W →
      (namesRepeat R f e mn mx st k acc).2 ≤ 5 * W * (meterRepeat R f e mn mx st k acc).2.calls ∧
      Listed (st.walkingRules.length + (meterRepeat R f e mn mx st k acc).2.calls) W (namesRepeat R f e mn mx st k acc).1) := by
  intro f
  induction f with
  | zero =>
    intro W
    refine ⟨?_, ?_, ?_, ?_, ?_⟩
    · intro st n _ h; rw [namesRuleName] at h; exact absurd rfl h
    · intro st e _ h; rw [namesExpr] at h; exact absurd rfl h
    · intro st es acc _ h; rw [namesAnd] at h; exact absurd rfl h
    · intro st es acc _ _ h; rw [namesOr] at h; exact absurd rfl h
    · intro e mn mx st k acc _ h; rw [namesRepeat] at h; exact absurd rfl h
  | succ f ih =>
    intro W
    obtain ⟨ih1, ih2, ih3, ih4, ih5⟩ := ih W
    -- what a part returns, what it wrote and what it used
    have part : ∀ st e, PotLe st W → ∃ x c m, namesExpr R f st e = (x, c) ∧ meterExpr R f st e = (x, m) ∧
        (x ≠ .diverge → st.walkingRules.length + m.calls ≤ W → c + 2 * W ≤ 5 * W * m.calls ∧
          Listed (st.walkingRules.length + m.calls) W x) := by
      intro st e hI
      exact ⟨_, _, _, rfl, Prod.ext (((meter_erase R f).2.1 st e).trans ((names_erase R f).2.1 st e).symm) rfl, ih2 st e hI⟩
    refine ⟨?_, ?_, ?_, ?_, ?_⟩
    · intro st n hI
      rw [namesRuleName, meterRuleName]
      generalize hst : (if st.traceRules = true then st.pushRule (c!"r:" ++ n) else st) = st'
      generalize hpu : (if st.traceRules = true then 1 else 0) = pu
      have hpu' : pu ≤ 1 := by rw [← hpu]; split <;> omega
      have hw : st'.walkingRules.length ≤ st.walkingRules.length + 1 := by
        rw [← hst]
        split
        · simp [Status.pushRule]
        · omega
      have hI' : PotLe st' W := by
        rw [← hst]
        split
        · exact hI
        · exact hI
      cases R.get n with
      | none =>
        intro _ h
        simp only [Meter.zero] at h ⊢
        have := raise_names (α := Status × Node) (st := st') (d := .missingRule n) (p := .critical)
        exact ⟨by omega, raise_listed (by omega)⟩
      | some e =>
        simp only
        obtain ⟨x, c, m, h1, h2, h3⟩ := part st' e hI'
        rw [h1, h2]
        rcases x with x | x | _ | _ <;> intro h hW
        · simp only at hW
          obtain ⟨h4, h5⟩ := h3 (by simp) (by omega)
          exact ⟨by simp only; omega, Nat.le_trans h5.1 (by simp only; omega), h5.2⟩
        · simp only at hW
          obtain ⟨h4, h5⟩ := h3 (by simp) (by omega)
          exact ⟨by simp only; omega, h5⟩
        · simp only at hW
          obtain ⟨h4, h5⟩ := h3 (by simp) (by omega)
          exact ⟨by simp only; omega, trivial⟩
        · exact absurd rfl h
    · intro st e hI
      cases e with
      | simple a =>
        intro _
        rw [namesExpr, meterExpr]
        simp only [Meter.zero, Meter.enter]
        intro h
        have h1 := atom_listed (a := a) hI (show st.walkingRules.length ≤ W by omega)
        have h2 : Listed st.walkingRules.length W (parseAtomAsExpr st a) := by
          unfold parseAtomAsExpr
          cases hx : parseAtom st a with
          | ok x => rw [hx] at h1; exact h1
          | err x => rw [hx] at h1; exact h1
          | _ => trivial
        have := listed_built h2
        exact ⟨by omega, listed_mono h2 (by omega)⟩
      | and es =>
        rw [namesExpr, meterExpr]
        intro h hW
        simp only [Meter.enter] at hW
        obtain ⟨h1, h2⟩ := ih3 st es [] hI h (by omega)
        simp only [Meter.enter, Nat.mul_add]
        exact ⟨by omega, listed_mono h2 (by omega)⟩
      | or es =>
        rw [namesExpr, meterExpr]
        intro h hW
        simp only [Meter.enter] at hW
        obtain ⟨h1, h2⟩ := ih4 st es none hI (by simp) h (by omega)
        have := potLe_names hI (by omega)
        simp only [Meter.enter, Nat.mul_add]
        exact ⟨by omega, listed_mono h2 (by omega)⟩
      | not e =>
        rw [namesExpr, meterExpr]
        obtain ⟨x, c, m, h1, h2, h3⟩ := part st e hI
        have h4 := raise_names (α := Status × List Node) (st := st) (d := .not) (p := .normal)
        rw [h1, h2]
        rcases x with x | x | _ | _ <;> intro h hW
        · simp only [Meter.enter] at hW
          obtain ⟨h5, h6⟩ := h3 (by simp) (by omega)
          have := potLe_names hI (by omega)
          simp only [Meter.enter, Nat.mul_add]
          exact ⟨by omega, raise_listed (by omega)⟩
        · simp only [Meter.enter] at hW
          obtain ⟨h5, h6⟩ := h3 (by simp) (by omega)
          have := potLe_names hI (by omega)
          simp only [Meter.enter, Nat.mul_add]
          exact ⟨by omega, Nat.le_add_right _ _, hI⟩
        · simp only [Meter.enter] at hW
          obtain ⟨h5, h6⟩ := h3 (by simp) (by omega)
          have := potLe_names hI (by omega)
          simp only [Meter.enter, Nat.mul_add]
          exact ⟨by omega, trivial⟩
        · exact absurd rfl h
      | rep e mn mx =>
        rw [namesExpr, meterExpr]
        intro h hW
        simp only [Meter.enter] at hW
        obtain ⟨h1, h2⟩ := ih5 e mn mx st 0 [] hI h (by omega)
        simp only [Meter.enter, Nat.mul_add]
        exact ⟨by omega, listed_mono h2 (by omega)⟩
      | ruleName n =>
        rw [namesExpr, meterExpr]
        have h1 := ih1 st n hI
        have h2 : (meterRuleName R f st n).1 = (namesRuleName R f st n).1 :=
          ((meter_erase R f).1 st n).trans ((names_erase R f).1 st n).symm
        generalize namesRuleName R f st n = y at h1 h2 ⊢
        generalize meterRuleName R f st n = z at h1 h2 ⊢
        obtain ⟨y, c⟩ := y
        obtain ⟨z, m⟩ := z
        simp only at h2
        subst h2
        rcases z with x | x | _ | _ <;> intro h hW
        · simp only [Meter.enter] at hW h1
          obtain ⟨h3, h4⟩ := h1 (by simp) (by omega)
          simp only [Meter.enter, Nat.mul_add] at h3 ⊢
          exact ⟨by omega, Nat.le_trans h4.1 (by omega), h4.2⟩
        · simp only [Meter.enter] at hW h1
          obtain ⟨h3, h4⟩ := h1 (by simp) (by omega)
          simp only [Meter.enter, Nat.mul_add] at h3 ⊢
          exact ⟨by omega, h4⟩
        · simp only [Meter.enter] at hW h1
          obtain ⟨h3, h4⟩ := h1 (by simp) (by omega)
          simp only [Meter.enter, Nat.mul_add] at h3 ⊢
          exact ⟨by omega, trivial⟩
        · exact absurd rfl h
    · intro st es acc hI
      cases es with
      | nil => intro _ _; rw [namesAnd]; exact ⟨Nat.zero_le _, Nat.le_add_right _ _, hI⟩
      | cons e es =>
        rw [namesAnd, meterAnd]
        obtain ⟨x, c, m, h1, h2, h3⟩ := part st e hI
        rw [h1, h2]
        rcases x with x | x | _ | _ <;> intro h hW
        · simp only [Meter.andThen] at hW
          obtain ⟨h4, h5⟩ := h3 (by simp) (by omega)
          have hx : x.1.walkingRules.length ≤ st.walkingRules.length + m.calls := h5.1
          obtain ⟨h6, h7⟩ := ih3 x.1 es (acc ++ x.2) h5.2 h (by omega)
          simp only [Meter.andThen, Nat.mul_add]
          exact ⟨by omega, listed_mono h7 (by omega)⟩
        · obtain ⟨h4, h5⟩ := h3 (by simp) hW
          exact ⟨by simp only; omega, h5⟩
        · obtain ⟨h4, h5⟩ := h3 (by simp) hW
          exact ⟨by simp only; omega, trivial⟩
        · exact absurd rfl h
    · intro st es acc hI hacc
      cases es with
      | nil =>
        intro _ hW
        cases acc with
        | some e => rw [namesOr]; exact ⟨Nat.zero_le _, hacc e rfl⟩
        | none =>
          rw [namesOr]
          simp only
          have := raise_names (α := Status × List Node) (st := st) (d := .orLogic) (p := .normal)
          exact ⟨by omega, raise_listed (by omega)⟩
      | cons e es =>
        rw [namesOr, meterOr]
        obtain ⟨x, c, m, h1, h2, h3⟩ := part st e hI
        rw [h1, h2]
        rcases x with x | x | _ | _
        · intro _ hW
          obtain ⟨h4, h5⟩ := h3 (by simp) hW
          have := potLe_names hI (W := W) (by simp only at hW; omega)
          exact ⟨by simp only; omega, h5⟩
        · simp only
          split
          · intro _ hW
            obtain ⟨h4, h5⟩ := h3 (by simp) hW
            have := potLe_names hI (W := W) (by simp only at hW; omega)
            exact ⟨by simp only; omega, h5⟩
          · intro h hW
            simp only [Meter.andThen] at hW
            obtain ⟨h4, h5⟩ := h3 (by simp) (by omega)
            have := potLe_names hI (W := W) (by omega)
            obtain ⟨h6, h7⟩ := ih4 st es (deepErr acc x) hI (by
              intro e he
              unfold deepErr at he
              cases acc with
              | none => cases he; exact h5
              | some a =>
                simp only at he
                split at he
                · cases he; exact hacc _ rfl
                · cases he; exact hacc _ rfl
                · cases he; exact h5) h (by omega)
            simp only [Meter.andThen, Nat.mul_add]
            exact ⟨by omega, listed_mono h7 (by omega)⟩
        · intro _ hW
          obtain ⟨h4, h5⟩ := h3 (by simp) hW
          have := potLe_names hI (W := W) (by simp only at hW; omega)
          exact ⟨by simp only; omega, trivial⟩
        · intro h; exact absurd rfl h
    · intro e mn mx st k acc hI
      rw [namesRepeat, meterRepeat]
      obtain ⟨x, c, m, h1, h2, h3⟩ := part st e hI
      rw [h1, h2]
      rcases x with x | x | _ | _
      · simp only
        split
        · intro _ hW
          obtain ⟨h4, h5⟩ := h3 (by simp) hW
          have := potLe_names hI (W := W) (by simp only at hW; omega)
          exact ⟨by simp only; omega, h5⟩
        · intro h hW
          simp only [Meter.andThen] at hW
          obtain ⟨h4, h5⟩ := h3 (by simp) (by omega)
          have hx : x.1.walkingRules.length ≤ st.walkingRules.length + m.calls := h5.1
          have := potLe_names hI (W := W) (by omega)
          obtain ⟨h6, h7⟩ := ih5 e mn mx x.1 (k + 1) (acc ++ x.2) h5.2 h (by omega)
          simp only [Meter.andThen, Nat.mul_add]
          exact ⟨by omega, listed_mono h7 (by omega)⟩
      · simp only
        split
        · split
          · intro _ hW
            obtain ⟨h4, h5⟩ := h3 (by simp) hW
            have := potLe_names hI (W := W) (by simp only at hW; omega)
            exact ⟨by simp only; omega, h5⟩
          · intro _ hW
            obtain ⟨h4, h5⟩ := h3 (by simp) hW
            have := potLe_names hI (W := W) (by simp only at hW; omega)
            exact ⟨by simp only; omega, Nat.le_add_right _ _, fun e he => by cases he; exact h5⟩
        · intro _ hW
          obtain ⟨h4, h5⟩ := h3 (by simp) hW
          have := potLe_names hI (W := W) (by simp only at hW; omega)
          exact ⟨by simp only; omega, h5⟩
      · intro _ hW
        obtain ⟨h4, h5⟩ := h3 (by simp) hW
        have := potLe_names hI (W := W) (by simp only at hW; omega)
        exact ⟨by simp only; omega, trivial⟩
      · intro h; exact absurd rfl h

/-! ### Nothing without the trace -/

/-- no rules are listed -/
def Quiet (st : Status) : Prop := st.traceRules = false ∧ st.walkingRules = [] ∧ PotLe st 0

def QuietErr (e : Error) : Prop := e.names = 0

theorem quiet_names {st} (h : Quiet st) : st.names = 0 := by
  have := potLe_names h.2.2 (by rw [h.2.1]; exact Nat.le_refl _)
  omega

theorem preserved_quiet (R : SetOfRules) : Preserved R (fun _ => True) Quiet QuietErr True where
  get {st st' c} h hg := by
    have := getChar_lists (st := st)
    rw [hg] at this
    refine ⟨?_, this.1.trans h.2.1, fun e he => h.2.2 e (this.2 ▸ he)⟩
    unfold getChar at hg
    cases hi : st.itParsing with
    | nil => rw [hi] at hg; cases hg
    | cons d r => rw [hi] at hg; cases hg; exact h.1
  push h _ ht := by rw [h.1] at ht; cases ht
  pot h he _ := ⟨h.1, h.2.1, fun e h' => by cases h'; exact Nat.le_of_eq he⟩
  err h _ hf := (fromStatus_names hf).trans (by rw [h.2.1]; rfl)
  pan _ _ _ := trivial

theorem quiet_all (f : Nat) :
    (∀ st n, Quiet st → Good Quiet QuietErr True (parseRuleName R f st n)) ∧
    (∀ st e, Quiet st → Good Quiet QuietErr True (parseExpr R f st e)) := by
  obtain ⟨h1, h2, _⟩ := preserve (preserved_quiet R) (fun _ _ _ _ _ => trivial) f
  exact ⟨fun st n h => h1 st n h trivial, fun st e h => h2 st e h fun _ _ => trivial⟩

theorem names_quiet : ∀ f,
    (∀ st n, Quiet st → (namesRuleName R f st n).2 = 0) ∧
    (∀ st e, Quiet st → (namesExpr R f st e).2 = 0) ∧
    (∀ st es acc, Quiet st → (namesAnd R f st es acc).2 = 0) ∧
    (∀ st es acc, Quiet st → (namesOr R f st es acc).2 = 0) ∧
    (∀ e mn mx st k acc, Quiet st → (namesRepeat R f e mn mx st k acc).2 = 0) := by
  have hst : ∀ {st}, Quiet st → st.names = 0 := quiet_names
  have hb : ∀ {α : Type} {st d p}, Quiet st → namesBuilt (raise st d p : Out Error α) = 0 := by
    intro α st d p h
    have := raise_names (α := α) (st := st) (d := d) (p := p)
    rw [h.2.1] at this
    exact Nat.le_zero.1 this
  have h0 : (0 : Nat) = 0 := rfl
  have hE : ∀ e, QuietErr e → e.names = 0 := fun _ h => h
  have ha : ∀ {a b : Nat}, a = 0 → b = 0 → a + b = 0 := fun h1 h2 => by rw [h1, h2]
  intro f
  induction f with
  | zero =>
    refine ⟨?_, ?_, ?_, ?_, ?_⟩ <;> intros
    · rw [namesRuleName]
    · rw [namesExpr]
    · rw [namesAnd]
    · rw [namesOr]
    · rw [namesRepeat]
  | succ f ih =>
    obtain ⟨ih1, ih2, ih3, ih4, ih5⟩ := ih
    have part : ∀ st e, Quiet st → ∃ x c, namesExpr R f st e = (x, c) ∧ Good Quiet QuietErr True x ∧ c = 0 := by
      intro st e hI
      refine ⟨_, _, rfl, ?_, ih2 st e hI⟩
      rw [(names_erase R f).2.1]
      exact (quiet_all f).2 st e hI
    refine ⟨?_, ?_, ?_, ?_, ?_⟩
    · intro st n hI
      rw [namesRuleName]
      simp only [hI.1, Bool.false_eq_true, if_false, Nat.zero_add]
      cases R.get n with
      | none => exact hb hI
      | some e =>
        simp only
        obtain ⟨x, c, h1, _, h3⟩ := part _ e hI
        rw [h1]
        rcases x with x | x | _ | _ <;> exact h3
    · intro st e hI
      cases e with
      | simple a =>
        rw [namesExpr]
        have := (quiet_all (R := R) 1).2 st (.simple a) hI
        rw [parseExpr] at this
        simp only
        cases hx : parseAtomAsExpr st a with
        | err e => rw [hx] at this; exact hE e this
        | _ => exact h0
      | and es => rw [namesExpr]; exact ih3 st es [] hI
      | or es => rw [namesExpr]; exact ha (hst hI) (ih4 st es none hI)
      | not e =>
        rw [namesExpr]
        obtain ⟨x, c, h1, _, h3⟩ := part st e hI
        rw [h1]
        rcases x with x | x | _ | _
        · exact ha (ha (hst hI) h3) (hb hI)
        all_goals exact ha (hst hI) h3
      | rep e mn mx => rw [namesExpr]; exact ih5 e mn mx st 0 [] hI
      | ruleName n =>
        rw [namesExpr]
        have h3 := ih1 st n hI
        generalize namesRuleName R f st n = y at h3 ⊢
        obtain ⟨y, c⟩ := y
        rcases y with x | x | _ | _ <;> exact h3
    · intro st es acc hI
      cases es with
      | nil => rw [namesAnd]
      | cons e es =>
        rw [namesAnd]
        obtain ⟨x, c, h1, hG, h3⟩ := part st e hI
        rw [h1]
        rcases x with x | x | _ | _
        · exact ha h3 (ih3 x.1 es (acc ++ x.2) hG)
        all_goals exact h3
    · intro st es acc hI
      cases es with
      | nil =>
        cases acc with
        | some e => rw [namesOr]
        | none => rw [namesOr]; exact hb hI
      | cons e es =>
        rw [namesOr]
        obtain ⟨x, c, h1, hG, h3⟩ := part st e hI
        rw [h1]
        rcases x with x | x | _ | _
        · exact ha (hst hI) h3
        · simp only
          split
          · exact ha (hst hI) h3
          · exact ha (ha (hst hI) h3) (ih4 st es (deepErr acc x) hI)
        · exact ha (hst hI) h3
        · exact ha (hst hI) h3
    · intro e mn mx st k acc hI
      rw [namesRepeat]
      obtain ⟨x, c, h1, hG, h3⟩ := part st e hI
      rw [h1]
      rcases x with x | x | _ | _
      · simp only
        split
        · exact ha (hst hI) h3
        · exact ha (ha (hst hI) h3) (ih5 e mn mx x.1 (k + 1) (acc ++ x.2) hG)
      · simp only
        split
        · split <;> exact ha (hst hI) h3
        · exact ha (hst hI) h3
      · exact ha (hst hI) h3
      · exact ha (hst hI) h3

/-! ### At least -/

/-- all that the status lists has been written: its names once, and those of the error that it remembers twice -/
def NamesPaid (D : Nat) (st : Status) : Prop :=
  st.walkingRules.length ≤ D ∧ ∀ e, st.potentialError = some e → 2 * e.names ≤ D

/-- so has what a run returns -/
def NamesPaidOut {α : Type} (D : Nat) : Out Error (Status × α) → Prop
  | .ok x => NamesPaid D x.1
  | .err e => 2 * e.names ≤ D
  | _ => True

theorem namesPaid_mono {D D' st} (h : NamesPaid D st) (hD : D ≤ D') : NamesPaid D' st :=
  ⟨Nat.le_trans h.1 hD, fun e he => Nat.le_trans (h.2 e he) hD⟩

theorem namesPaidOut_mono {α : Type} {D D'} {x : Out Error (Status × α)} (h : NamesPaidOut D x) (hD : D ≤ D') : NamesPaidOut D' x := by
  cases x with
  | ok x => exact namesPaid_mono h hD
  | err e => exact Nat.le_trans (show 2 * e.names ≤ D from h) hD
  | _ => trivial

theorem raise_namesPaid {α : Type} {st d p D} (h : NamesPaid D st) :
    NamesPaidOut (D + namesBuilt (raise st d p : Out Error (Status × α))) (raise st d p : Out Error (Status × α)) := by
  unfold raise
  cases hf : fromStatus st d p with
  | none => trivial
  | some e =>
    have h1 := fromStatus_names hf
    have h2 := h.1
    show 2 * e.names ≤ D + e.names
    omega

theorem atom_namesPaid {st : Status} {D a} (h : NamesPaid D st) :
    NamesPaidOut (D + namesBuilt (parseAtomAsExpr st a)) (parseAtomAsExpr st a) := by
  suffices h1 : NamesPaidOut (D + namesBuilt (parseAtom st a)) (parseAtom st a) by
    unfold parseAtomAsExpr
    cases hx : parseAtom st a with
    | ok x => rw [hx] at h1; exact h1
    | err x => rw [hx] at h1; exact h1
    | _ => trivial
  have hg := getChar_lists (st := st)
  have same : ∀ {st' : Status}, st'.walkingRules = st.walkingRules ∧ st'.potentialError = st.potentialError → NamesPaid D st' := by
    intro st' h'
    exact ⟨by rw [h'.1]; exact h.1, by rw [h'.2]; exact h.2⟩
  cases a with
  | literal l =>
    show NamesPaidOut (D + namesBuilt (parseLiteral _ _)) (parseLiteral _ _)
    unfold parseLiteral
    have hl' := literalLoop_lists l l st (Nat.le_refl _)
    have h2 := h.1
    cases hl : parseLiteralLoop l st l with
    | ok st' => rw [hl] at hl'; exact same hl'
    | err e =>
      rw [hl] at hl'
      show 2 * e.names ≤ D + e.names
      simp only at hl'
      omega
    | _ => trivial
  | error s => exact raise_namesPaid h
  | mtch cs rs =>
    show NamesPaidOut (D + namesBuilt (parseMatch _ _ _)) (parseMatch _ _ _)
    unfold parseMatch
    cases hc : getChar st with
    | ok x =>
      rw [hc] at hg
      simp only
      split
      · exact same hg
      · exact raise_namesPaid (same hg)
    | error st' => rw [hc] at hg; exact raise_namesPaid (same hg)
  | dot =>
    show NamesPaidOut (D + namesBuilt (parseDot _)) (parseDot _)
    unfold parseDot
    cases hc : getChar st with
    | ok x => rw [hc] at hg; exact same hg
    | error st' => rw [hc] at hg; exact raise_namesPaid (same hg)
  | eof =>
    show NamesPaidOut (D + namesBuilt (parseEof _)) (parseEof _)
    unfold parseEof
    cases hc : getChar st with
    | ok x => rw [hc] at hg; exact raise_namesPaid (same hg)
    | error st' => rw [hc] at hg; exact same hg

theorem names_paid : ∀ f,
    (∀ st n D, NamesPaid D st → NamesPaidOut (D + (namesRuleName R f st n).2) (namesRuleName R f st n).1) ∧
    (∀ st e D, NamesPaid D st → NamesPaidOut (D + (namesExpr R f st e).2) (namesExpr R f st e).1) ∧
    (∀ st es acc D, NamesPaid D st → NamesPaidOut (D + (namesAnd R f st es acc).2) (namesAnd R f st es acc).1) ∧
    (∀ st es acc D, NamesPaid D st → (∀ e, acc = some e → 2 * e.names ≤ D) →
      NamesPaidOut (D + (namesOr R f st es acc).2) (namesOr R f st es acc).1) ∧
    (∀ e mn mx st k acc D, NamesPaid D st →
      NamesPaidOut (D + (namesRepeat R f e mn mx st k acc).2) (namesRepeat R f e mn mx st k acc).1) := by
  intro f
  induction f with
  | zero =>
    refine ⟨?_, ?_, ?_, ?_, ?_⟩ <;> intros
    · rw [namesRuleName]; trivial
    · rw [namesExpr]; trivial
    · rw [namesAnd]; trivial
    · rw [namesOr]; trivial
    · rw [namesRepeat]; trivial
  | succ f ih =>
    obtain ⟨ih1, ih2, ih3, ih4, ih5⟩ := ih
    have part : ∀ st e D, NamesPaid D st → ∃ x c, namesExpr R f st e = (x, c) ∧ NamesPaidOut (D + c) x :=
      fun st e D hI => ⟨_, _, rfl, ih2 st e D hI⟩
    refine ⟨?_, ?_, ?_, ?_, ?_⟩
    · intro st n D hI
      rw [namesRuleName]
      have hI' : NamesPaid (D + (if st.traceRules = true then 1 else 0))
          (if st.traceRules = true then st.pushRule (c!"r:" ++ n) else st) := by
        split
        · have := hI.1
          exact ⟨by simp [Status.pushRule]; omega, fun e he => Nat.le_trans (hI.2 e he) (Nat.le_add_right _ _)⟩
        · exact hI
      generalize (if st.traceRules = true then st.pushRule (c!"r:" ++ n) else st) = st' at hI' ⊢
      generalize (if st.traceRules = true then 1 else 0) = pu at hI' ⊢
      cases R.get n with
      | none =>
        simp only
        rw [← Nat.add_assoc]
        exact raise_namesPaid hI'
      | some e =>
        simp only
        obtain ⟨x, c, h1, h2⟩ := part st' e _ hI'
        rw [Nat.add_assoc] at h2
        rw [h1]
        rcases x with x | x | _ | _
        · exact h2
        · exact h2
        all_goals trivial
    · intro st e D hI
      cases e with
      | simple a => rw [namesExpr]; exact atom_namesPaid hI
      | and es => rw [namesExpr]; exact ih3 st es [] D hI
      | or es => rw [namesExpr]; exact namesPaidOut_mono (ih4 st es none D hI (by simp)) (by simp only; omega)
      | not e =>
        rw [namesExpr]
        obtain ⟨x, c, h1, h2⟩ := part st e D hI
        rw [h1]
        rcases x with x | x | _ | _
        · exact namesPaidOut_mono (raise_namesPaid hI) (by simp only; omega)
        · exact namesPaid_mono hI (by simp only; omega)
        all_goals trivial
      | rep e mn mx => rw [namesExpr]; exact ih5 e mn mx st 0 [] D hI
      | ruleName n =>
        rw [namesExpr]
        have h1 := ih1 st n D hI
        generalize namesRuleName R f st n = y at h1 ⊢
        obtain ⟨y, c⟩ := y
        rcases y with x | x | _ | _
        · exact h1
        · exact h1
        all_goals trivial
    · intro st es acc D hI
      cases es with
      | nil => rw [namesAnd]; exact hI
      | cons e es =>
        rw [namesAnd]
        obtain ⟨x, c, h1, h2⟩ := part st e D hI
        rw [h1]
        rcases x with x | x | _ | _
        · simp only
          rw [← Nat.add_assoc]
          exact ih3 x.1 es (acc ++ x.2) (D + c) h2
        · exact h2
        all_goals trivial
    · intro st es acc D hI hacc
      cases es with
      | nil =>
        cases acc with
        | some e => rw [namesOr]; exact hacc e rfl
        | none => rw [namesOr]; exact raise_namesPaid hI
      | cons e es =>
        rw [namesOr]
        obtain ⟨x, c, h1, h2⟩ := part st e D hI
        rw [h1]
        rcases x with x | x | _ | _
        · exact namesPaid_mono h2 (by simp only; omega)
        · have h3 : 2 * x.names ≤ D + c := h2
          simp only
          split
          · exact Nat.le_trans h3 (by simp only; omega)
          · refine namesPaidOut_mono (ih4 st es (deepErr acc x) (D + c) (namesPaid_mono hI (by omega)) ?_) (by simp only; omega)
            intro e he
            rcases deepErr_cases acc x with h4 | ⟨a, h4, h5⟩
            · rw [h4] at he; cases he; exact h3
            · rw [h5] at he; cases he; have := hacc _ h4; omega
        all_goals trivial
    · intro e mn mx st k acc D hI
      rw [namesRepeat]
      obtain ⟨x, c, h1, h2⟩ := part st e D hI
      rw [h1]
      rcases x with x | x | _ | _
      · simp only
        split
        · exact namesPaid_mono h2 (by simp only; omega)
        · exact namesPaidOut_mono (ih5 e mn mx x.1 (k + 1) (acc ++ x.2) (D + c) h2) (by simp only; omega)
      · have h3 : 2 * x.names ≤ D + c := h2
        simp only
        split
        · split
          · exact Nat.le_trans h3 (by simp only; omega)
          · refine ⟨Nat.le_trans hI.1 (by simp only; omega), fun e he => ?_⟩
            cases he
            exact Nat.le_trans h3 (by simp only; omega)
        · exact Nat.le_trans h3 (by simp only; omega)
      all_goals trivial

end DP
