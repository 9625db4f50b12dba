/-
The meter does not disturb the parser, and measures what Spec/Effort.lean says.
-/
import Verif.Model.Meter
import Verif.Spec.Effort
import Verif.Spec.Refs
import Verif.Proofs.Api
import Verif.Proofs.Total

namespace DP
open Spec

variable (R : SetOfRules)

/-- Without the meter these are the parsing functions. -/
theorem meter_erase : ∀ f,
    (∀ st n, (meterRuleName R f st n).1 = parseRuleName R f st n) ∧
    (∀ st e, (meterExpr R f st e).1 = parseExpr R f st e) ∧
    (∀ st es acc, (meterAnd R f st es acc).1 = parseAnd R f st es acc) ∧
    (∀ st es acc, (meterOr R f st es acc).1 = parseOr R f st es acc) ∧
    (∀ e mn mx st k acc, (meterRepeat R f e mn mx st k acc).1 = parseRepeat R f e mn mx st k acc) := by
  intro f
  induction f with
  | zero =>
    refine ⟨?_, ?_, ?_, ?_, ?_⟩ <;> intros
    · rw [meterRuleName, parseRuleName]
    · rw [meterExpr, parseExpr]
    · rw [meterAnd, parseAnd]
    · rw [meterOr, parseOr]
    · rw [meterRepeat, parseRepeat]
  | succ f ih =>
    obtain ⟨ih1, ih2, ih3, ih4, ih5⟩ := ih
    refine ⟨?_, ?_, ?_, ?_, ?_⟩
    · intro st n
      rw [meterRuleName, parseRuleName]
      cases R.get n with
      | none => rfl
      | some e =>
        simp only
        rw [← ih2]
        rcases meterExpr R f _ e with ⟨x | x | _ | _, m⟩ <;> rfl
    · intro st e
      cases e with
      | simple a => rw [meterExpr, parseExpr]
      | and es => rw [meterExpr, parseExpr, ← ih3]
      | or es => rw [meterExpr, parseExpr, ← ih4]
      | not e =>
        rw [meterExpr, parseExpr, ← ih2]
        rcases meterExpr R f st e with ⟨x | x | _ | _, m⟩ <;> rfl
      | rep e mn mx => rw [meterExpr, parseExpr, ← ih5]
      | ruleName n =>
        rw [meterExpr, parseExpr, ← ih1]
        rcases meterRuleName R f st n with ⟨x | x | _ | _, m⟩ <;> rfl
    · intro st es acc
      cases es with
      | nil => rw [meterAnd, parseAnd]
      | cons e es =>
        rw [meterAnd, parseAnd, ← ih2]
        rcases meterExpr R f st e with ⟨x | x | _ | _, m⟩
        · exact ih3 _ _ _
        all_goals rfl
    · intro st es acc
      cases es with
      | nil => cases acc <;> rw [meterOr, parseOr]
      | cons e es =>
        rw [meterOr, parseOr, ← ih2]
        rcases meterExpr R f st e with ⟨x | x | _ | _, m⟩
        · rfl
        · simp only
          split
          · rfl
          · exact ih4 _ _ _
        all_goals rfl
    · intro e mn mx st k acc
      rw [meterRepeat, parseRepeat, ← ih2]
      rcases meterExpr R f st e with ⟨x | x | _ | _, m⟩
      · simp only
        split
        · rfl
        · exact ih5 _ _ _ _ _ _
      · simp only
        split
        · split <;> rfl
        · rfl
      all_goals rfl

/-- finished, or not at all -/
def MLe {α : Type} (x y : Out Error α × Meter) : Prop := x.1 = .diverge ∨ x = y

/-- One more unit of fuel does not change what a finished run has used. -/
theorem meter_step : ∀ f,
    (∀ st n, MLe (meterRuleName R f st n) (meterRuleName R (f+1) st n)) ∧
    (∀ st e, MLe (meterExpr R f st e) (meterExpr R (f+1) st e)) ∧
    (∀ st es acc, MLe (meterAnd R f st es acc) (meterAnd R (f+1) st es acc)) ∧
    (∀ st es acc, MLe (meterOr R f st es acc) (meterOr R (f+1) st es acc)) ∧
    (∀ e mn mx st k acc, MLe (meterRepeat R f e mn mx st k acc) (meterRepeat R (f+1) e mn mx st k acc)) := by
  intro f
  induction f with
  | zero =>
    refine ⟨?_, ?_, ?_, ?_, ?_⟩ <;> intros <;> left
    · rw [meterRuleName]
    · rw [meterExpr]
    · rw [meterAnd]
    · rw [meterOr]
    · rw [meterRepeat]
  | succ f ih =>
    obtain ⟨ih1, ih2, ih3, ih4, ih5⟩ := ih
    refine ⟨?_, ?_, ?_, ?_, ?_⟩
    · intro st n
      rw [meterRuleName, meterRuleName]
      cases R.get n with
      | none => exact Or.inr rfl
      | some e =>
        simp only
        rcases ih2 (if st.traceRules = true then st.pushRule (c!"r:" ++ n) else st) e with h | h
        · left
          generalize meterExpr R f (if st.traceRules = true then st.pushRule (c!"r:" ++ n) else st) e = x at h ⊢
          obtain ⟨x, m⟩ := x; simp only at h; subst h; rfl
        · right; rw [h]
    · intro st e
      cases e with
      | simple a => right; rw [meterExpr, meterExpr]
      | and es =>
        rw [meterExpr, meterExpr]
        rcases ih3 st es [] with h | h
        · exact Or.inl h
        · right; rw [h]
      | or es =>
        rw [meterExpr, meterExpr]
        rcases ih4 st es none with h | h
        · exact Or.inl h
        · right; rw [h]
      | not e =>
        rw [meterExpr, meterExpr]
        rcases ih2 st e with h | h
        · left
          generalize meterExpr R f st e = x at h ⊢
          obtain ⟨x, m⟩ := x; simp only at h; subst h; rfl
        · right; rw [h]
      | rep e mn mx =>
        rw [meterExpr, meterExpr]
        rcases ih5 e mn mx st 0 [] with h | h
        · exact Or.inl h
        · right; rw [h]
      | ruleName n =>
        rw [meterExpr, meterExpr]
        rcases ih1 st n with h | h
        · left
          generalize meterRuleName R f st n = x at h ⊢
          obtain ⟨x, m⟩ := x; simp only at h; subst h; rfl
        · right; rw [h]
    · intro st es acc
      cases es with
      | nil => right; rw [meterAnd, meterAnd]
      | cons e es =>
        rw [meterAnd, meterAnd]
        rcases ih2 st e with h | h
        · left
          generalize meterExpr R f st e = x at h ⊢
          obtain ⟨x, m⟩ := x; simp only at h; subst h; rfl
        · rw [← h]
          rcases meterExpr R f st e with ⟨x | x | _ | _, m⟩
          · rcases ih3 x.1 es (acc ++ x.2) with h | h
            · exact Or.inl h
            · right; simp only; rw [h]
          all_goals exact Or.inr rfl
    · intro st es acc
      cases es with
      | nil => right; cases acc <;> rw [meterOr, meterOr]
      | cons e es =>
        rw [meterOr, meterOr]
        rcases ih2 st e with h | h
        · left
          generalize meterExpr R f st e = x at h ⊢
          obtain ⟨x, m⟩ := x; simp only at h; subst h; rfl
        · rw [← h]
          rcases meterExpr R f st e with ⟨x | x | _ | _, m⟩
          · exact Or.inr rfl
          · simp only
            split
            · exact Or.inr rfl
            · rcases ih4 st es (deepErr acc x) with h | h
              · exact Or.inl h
              · right; rw [h]
          all_goals exact Or.inr rfl
    · intro e mn mx st k acc
      rw [meterRepeat, meterRepeat]
      rcases ih2 st e with h | h
      · left
        generalize meterExpr R f st e = x at h ⊢
        obtain ⟨x, m⟩ := x; simp only at h; subst h; rfl
      · rw [← h]
        rcases meterExpr R f st e with ⟨x | x | _ | _, m⟩
        · simp only
          split
          · exact Or.inr rfl
          · rcases ih5 e mn mx x.1 (k + 1) (acc ++ x.2) with h | h
            · exact Or.inl h
            · right; rw [h]
        all_goals exact Or.inr rfl

theorem meter_mono {f g : Nat} (h : f ≤ g) {st n} (hd : parseRuleName R f st n ≠ .diverge) :
    meterRuleName R g st n = meterRuleName R f st n := by
  induction h with
  | refl => rfl
  | @step g _ ih =>
    have hd' : (meterRuleName R g st n).1 ≠ .diverge := by rw [ih, (meter_erase R f).1]; exact hd
    rcases (meter_step R g).1 st n with h | h
    · exact absurd h hd'
    · rw [← h, ih]

/-! ### what is measured -/

variable {R}

/-- the outcome in the reference semantics that a result of the parser stands for -/
def PegRes (R : SetOfRules) (e : Expr) (s : Str) : Out Error (Status × List Node) → Prop
  | .ok x => Peg (denotes R) e s (.ok x.1.itParsing x.2)
  | .err er => if er.priority = .critical then ∃ w q, Peg (denotes R) e s (.crit w q) else Peg (denotes R) e s .fail
  | _ => True

theorem peg_of_sound {text : Str} {f : Nat} {st : Status} {e : Expr} (hI : Inv text st) {x : Out Error (Status × List Node)}
    (h : parseExpr R f st e = x) : PegRes R (effective e) st.itParsing x := by
  have := sound_all (R := R) (f := f) (e := e) hI
  rw [h] at this
  cases x with
  | ok x => exact this
  | err er =>
    rcases this with ⟨h1, h2⟩ | ⟨h1, _, _, _, _, h2⟩
    · simp only [PegRes, h1]; simpa using h2
    · simp only [PegRes, h1, if_true]; exact ⟨_, _, h2⟩
  | panic => trivial
  | diverge => trivial

/-- the number of rounds left when `k` rounds are done -/
def roundsLeft : Option Nat → Nat → Option Nat
  | none, _ => none
  | some 0, _ => none
  | some (m + 1), k => some (m + 1 - k)

theorem roundsLeft_ne {mx k} (h : ∀ m, mx = some (m + 1) → k < m + 1) : roundsLeft mx k ≠ some 0 := by
  match mx with
  | none => simp [roundsLeft]
  | some 0 => simp [roundsLeft]
  | some (m + 1) => have := h m rfl; simp [roundsLeft]; omega

theorem roundsLeft_last {mx k} (h : touchMaxBound mx k = true) : (roundsLeft mx k).map (· - 1) = some 0 := by
  match mx with
  | none => simp [touchMaxBound] at h
  | some 0 => simp [touchMaxBound] at h
  | some (m + 1) => simp only [touchMaxBound, beq_iff_eq] at h; simp [roundsLeft]; omega

theorem roundsLeft_next {mx k} (h : touchMaxBound mx k = false) (hk : ∀ m, mx = some (m + 1) → k < m + 1) :
    (roundsLeft mx k).map (· - 1) = roundsLeft mx (k + 1) ∧ ∀ m, mx = some (m + 1) → k + 1 < m + 1 := by
  match mx with
  | none => simp [roundsLeft]
  | some 0 => simp [roundsLeft]
  | some (m + 1) =>
    have := hk m rfl
    simp only [touchMaxBound, beq_eq_false_iff_ne] at h
    refine ⟨?_, ?_⟩
    · simp only [roundsLeft, Option.map_some, Option.some.injEq]; omega
    · intro m' hm; cases hm; omega

theorem effective_rep (e mn mx) : ∃ mn', effective (.rep e mn mx) = .rep (effective e) mn' (roundsLeft mx 0) := by
  match mx with
  | none => exact ⟨mn, by rw [effective]; rfl⟩
  | some 0 => exact ⟨mn, by rw [effective]; rfl⟩
  | some (m + 1) => exact ⟨min mn (m + 1), by rw [effective]; rfl⟩

/-- finished without a panic -/
def Done {α : Type} (x : Out Error α) : Prop := x ≠ .diverge ∧ x ≠ .panic

theorem meter_effort (text : Str) : ∀ f,
    (∀ st n, Inv text st → Done (meterRuleName R f st n).1 →
      Effort (denotes R) (.one (.ruleName n)) st.itParsing ((meterRuleName R f st n).2.calls + 1) ((meterRuleName R f st n).2.depth + 1)) ∧
    (∀ st e, Inv text st → Done (meterExpr R f st e).1 →
      Effort (denotes R) (.one (effective e)) st.itParsing (meterExpr R f st e).2.calls (meterExpr R f st e).2.depth) ∧
    (∀ st es acc, Inv text st → Done (meterAnd R f st es acc).1 →
      Effort (denotes R) (.seq (effectives es)) st.itParsing (meterAnd R f st es acc).2.calls (meterAnd R f st es acc).2.depth) ∧
    (∀ st es acc, Inv text st → Done (meterOr R f st es acc).1 →
      Effort (denotes R) (.alt (effectives es)) st.itParsing (meterOr R f st es acc).2.calls (meterOr R f st es acc).2.depth) ∧
    (∀ e mn mx st k acc, Inv text st → (∀ m, mx = some (m + 1) → k < m + 1) → Done (meterRepeat R f e mn mx st k acc).1 →
      Effort (denotes R) (.loop (effective e) (roundsLeft mx k)) st.itParsing (meterRepeat R f e mn mx st k acc).2.calls
        (meterRepeat R f e mn mx st k acc).2.depth) := by
  intro f
  induction f with
  | zero =>
    refine ⟨?_, ?_, ?_, ?_, ?_⟩ <;> intros
    · rename_i h; rw [meterRuleName] at h; exact absurd rfl h.1
    · rename_i h; rw [meterExpr] at h; exact absurd rfl h.1
    · rename_i h; rw [meterAnd] at h; exact absurd rfl h.1
    · rename_i h; rw [meterOr] at h; exact absurd rfl h.1
    · rename_i h; rw [meterRepeat] at h; exact absurd rfl h.1
  | succ f ih =>
    obtain ⟨ih1, ih2, ih3, ih4, ih5⟩ := ih
    refine ⟨?_, ?_, ?_, ?_, ?_⟩
    · intro st n hI hd
      have hI' : Inv text (if st.traceRules then st.pushRule (c!"r:" ++ n) else st) := by
        split
        · exact ⟨hI.text, hI.at_⟩
        · exact hI
      have hit : (if st.traceRules then st.pushRule (c!"r:" ++ n) else st).itParsing = st.itParsing := by split <;> rfl
      rw [meterRuleName] at hd ⊢
      generalize (if st.traceRules then st.pushRule (c!"r:" ++ n) else st) = st' at *
      cases hg : R.get n with
      | none =>
        exact .missing (by show (grammar R n).map effective = none; rw [show grammar R n = none from hg]; rfl)
      | some e =>
        rw [hg] at hd
        have hG : denotes R n = some (effective e) := by
          show (grammar R n).map effective = _
          rw [show grammar R n = some e from hg]; rfl
        have := ih2 st' e hI'
        rw [hit] at this
        simp only at hd ⊢
        revert this hd
        rcases meterExpr R f st' e with ⟨x | x | _ | _, m⟩
        · intro _ this; exact .call hG (this ⟨by simp, by simp⟩)
        · intro _ this; exact .call hG (this ⟨by simp, by simp⟩)
        · intro hd; exact absurd rfl hd.2
        · intro hd; exact absurd rfl hd.1
    · intro st e hI hd
      cases e with
      | simple a => rw [meterExpr] at hd ⊢; rw [effective]; exact .simple _ _
      | and es => rw [meterExpr] at hd ⊢; rw [effective]; exact .and (ih3 st es [] hI hd)
      | or es => rw [meterExpr] at hd ⊢; rw [effective]; exact .or (ih4 st es none hI hd)
      | not e =>
        rw [meterExpr] at hd ⊢
        rw [effective]
        have := ih2 st e hI
        revert this hd
        rcases meterExpr R f st e with ⟨x | x | _ | _, m⟩
        · intro _ this; exact .not (this ⟨by simp, by simp⟩)
        · intro _ this; exact .not (this ⟨by simp, by simp⟩)
        · intro hd; exact absurd rfl hd.2
        · intro hd; exact absurd rfl hd.1
      | rep e mn mx =>
        rw [meterExpr] at hd ⊢
        obtain ⟨mn', h⟩ := effective_rep e mn mx
        rw [h]
        exact .rep (ih5 e mn mx st 0 [] hI (by omega) hd)
      | ruleName n =>
        rw [meterExpr] at hd ⊢
        rw [effective]
        have := ih1 st n hI
        revert this hd
        rcases meterRuleName R f st n with ⟨x | x | _ | _, m⟩
        · intro _ this; exact this ⟨by simp, by simp⟩
        · intro _ this; exact this ⟨by simp, by simp⟩
        · intro hd; exact absurd rfl hd.2
        · intro hd; exact absurd rfl hd.1
    · intro st es acc hI hd
      cases es with
      | nil => rw [meterAnd] at hd ⊢; rw [effectives]; exact .seq_nil _
      | cons e es =>
        rw [meterAnd] at hd ⊢
        rw [effectives]
        have h1 := ih2 st e hI
        have h2 := peg_of_sound (f := f) (e := e) hI ((meter_erase R f).2.1 st e).symm
        have h3 := fun x (h : (meterExpr R f st e).1 = .ok x) => inv_after hI (((meter_erase R f).2.1 st e).symm.trans h)
        revert h1 h2 h3 hd
        rcases meterExpr R f st e with ⟨x | x | _ | _, m⟩
        · intro hd h1 h2 h3
          exact .seq_more (h1 ⟨by simp, by simp⟩) h2 (ih3 _ _ _ (h3 x rfl) hd)
        · intro hd h1 h2 h3
          simp only [PegRes] at h2
          split at h2
          · obtain ⟨w, q, h2⟩ := h2
            exact .seq_stop (h1 ⟨by simp, by simp⟩) h2 (by simp)
          · exact .seq_stop (h1 ⟨by simp, by simp⟩) h2 (by simp)
        · intro hd; exact absurd rfl hd.2
        · intro hd; exact absurd rfl hd.1
    · intro st es acc hI hd
      cases es with
      | nil => rw [effectives]; cases acc <;> rw [meterOr] <;> exact .alt_nil _
      | cons e es =>
        rw [meterOr] at hd ⊢
        rw [effectives]
        have h1 := ih2 st e hI
        have h2 := peg_of_sound (f := f) (e := e) hI ((meter_erase R f).2.1 st e).symm
        revert h1 h2 hd
        rcases meterExpr R f st e with ⟨x | x | _ | _, m⟩
        · intro hd h1 h2
          exact .alt_stop (h1 ⟨by simp, by simp⟩) h2 (by simp)
        · intro hd h1 h2
          simp only [PegRes] at h2 hd ⊢
          split at h2
          · rename_i hc
            obtain ⟨w, q, h2⟩ := h2
            rw [if_pos hc]
            exact .alt_stop (h1 ⟨by simp, by simp⟩) h2 (by simp)
          · rename_i hc
            rw [if_neg hc] at hd ⊢
            exact .alt_more (h1 ⟨by simp, by simp⟩) h2 (ih4 _ _ _ hI hd)
        · intro hd; exact absurd rfl hd.2
        · intro hd; exact absurd rfl hd.1
    · intro e mn mx st k acc hI hk hd
      rw [meterRepeat] at hd ⊢
      have h0 := roundsLeft_ne hk
      have h1 := ih2 st e hI
      have h2 := peg_of_sound (f := f) (e := e) hI ((meter_erase R f).2.1 st e).symm
      have h3 := fun x (h : (meterExpr R f st e).1 = .ok x) => inv_after hI (((meter_erase R f).2.1 st e).symm.trans h)
      revert h1 h2 h3 hd
      rcases meterExpr R f st e with ⟨x | x | _ | _, m⟩
      · intro hd h1 h2 h3
        simp only [PegRes] at hd h2 ⊢
        cases ht : touchMaxBound mx k with
        | true =>
          rw [if_pos rfl]
          have := Effort.loop_more h0 (h1 ⟨by simp, by simp⟩) h2 (c' := 0) (d' := 0) (by rw [roundsLeft_last ht]; exact .loop_full _ _)
          simpa using this
        | false =>
          rw [ht] at hd
          simp only [Bool.false_eq_true, if_false] at hd ⊢
          obtain ⟨h4, h5⟩ := roundsLeft_next ht hk
          exact .loop_more h0 (h1 ⟨by simp, by simp⟩) h2 (by rw [h4]; exact ih5 _ _ _ _ _ _ (h3 x rfl) h5 hd)
      · intro hd h1 h2 h3
        have : ∃ o, Peg (denotes R) (effective e) st.itParsing o ∧ ∀ r ns, o ≠ .ok r ns := by
          simp only [PegRes] at h2
          split at h2
          · obtain ⟨w, q, h2⟩ := h2
            exact ⟨_, h2, by simp⟩
          · exact ⟨_, h2, by simp⟩
        obtain ⟨o, h4, h5⟩ := this
        have := Effort.loop_stop h0 (h1 ⟨by simp, by simp⟩) h4 h5
        simp only
        split
        · split <;> exact this
        · exact this
      · intro hd; exact absurd rfl hd.2
      · intro hd; exact absurd rfl hd.1

/-- The work is determined. -/
theorem effort_det {G : Str → Option Expr} {t s c d} (h : Effort G t s c d) : ∀ {c' d'}, Effort G t s c' d' → c = c' ∧ d = d' := by
  induction h with
  | simple => intro _ _ h; cases h; exact ⟨rfl, rfl⟩
  | and _ ih => intro _ _ h; cases h with | and h => obtain ⟨rfl, rfl⟩ := ih h; exact ⟨rfl, rfl⟩
  | or _ ih => intro _ _ h; cases h with | or h => obtain ⟨rfl, rfl⟩ := ih h; exact ⟨rfl, rfl⟩
  | not _ ih => intro _ _ h; cases h with | not h => obtain ⟨rfl, rfl⟩ := ih h; exact ⟨rfl, rfl⟩
  | rep _ ih => intro _ _ h; cases h with | rep h => obtain ⟨rfl, rfl⟩ := ih h; exact ⟨rfl, rfl⟩
  | call hg _ ih =>
    intro _ _ h
    cases h with
    | call hg' h => rw [hg] at hg'; cases hg'; obtain ⟨rfl, rfl⟩ := ih h; exact ⟨rfl, rfl⟩
    | missing hg' => rw [hg] at hg'; cases hg'
  | missing hg =>
    intro _ _ h
    cases h with
    | call hg' h => rw [hg] at hg'; cases hg'
    | missing hg' => exact ⟨rfl, rfl⟩
  | seq_nil => intro _ _ h; cases h; exact ⟨rfl, rfl⟩
  | seq_more _ hp _ ih1 ih2 =>
    intro _ _ h
    cases h with
    | seq_more h1 hp' h2 =>
      cases peg_det hp hp'
      obtain ⟨rfl, rfl⟩ := ih1 h1
      obtain ⟨rfl, rfl⟩ := ih2 h2
      exact ⟨rfl, rfl⟩
    | seq_stop h1 hp' ho => cases peg_det hp hp'; exact absurd rfl (ho _ _)
  | seq_stop _ hp ho ih =>
    intro _ _ h
    cases h with
    | seq_more h1 hp' h2 => cases peg_det hp hp'; exact absurd rfl (ho _ _)
    | seq_stop h1 hp' ho => exact ih h1
  | alt_nil => intro _ _ h; cases h; exact ⟨rfl, rfl⟩
  | alt_more _ hp _ ih1 ih2 =>
    intro _ _ h
    cases h with
    | alt_more h1 hp' h2 =>
      obtain ⟨rfl, rfl⟩ := ih1 h1
      obtain ⟨rfl, rfl⟩ := ih2 h2
      exact ⟨rfl, rfl⟩
    | alt_stop h1 hp' ho => cases peg_det hp hp'; exact absurd rfl ho
  | alt_stop _ hp ho ih =>
    intro _ _ h
    cases h with
    | alt_more h1 hp' h2 => cases peg_det hp hp'; exact absurd rfl ho
    | alt_stop h1 hp' ho => exact ih h1
  | loop_full => intro _ _ h; cases h with
    | loop_full => exact ⟨rfl, rfl⟩
    | loop_more h _ _ _ => exact absurd rfl h
    | loop_stop h _ _ _ => exact absurd rfl h
  | loop_more hm _ hp _ ih1 ih2 =>
    intro _ _ h
    cases h with
    | loop_full => exact absurd rfl hm
    | loop_more _ h1 hp' h2 =>
      cases peg_det hp hp'
      obtain ⟨rfl, rfl⟩ := ih1 h1
      obtain ⟨rfl, rfl⟩ := ih2 h2
      exact ⟨rfl, rfl⟩
    | loop_stop _ h1 hp' ho => cases peg_det hp hp'; exact absurd rfl (ho _ _)
  | loop_stop hm _ hp ho ih =>
    intro _ _ h
    cases h with
    | loop_full => exact absurd rfl hm
    | loop_more _ h1 hp' h2 => cases peg_det hp hp'; exact absurd rfl (ho _ _)
    | loop_stop _ h1 hp' ho => exact ih h1

/-- the outcomes of a task -/
def Task.Ends (G : Str → Option Expr) (s : Str) : Task → Prop
  | .one e => ∃ o, Peg G e s o
  | .seq es => ∃ o, Peg G (.and es) s o
  | .alt es => ∃ o, Peg G (.or es) s o
  | .loop e mx => ∀ mn, ∃ o, Peg G (.rep e mn mx) s o

theorem total_atom (G : Str → Option Expr) (a : Atom) (s : Str) : ∃ o, Peg G (.simple a) s o := by
  cases a with
  | literal l =>
    by_cases h : l <+: s
    · obtain ⟨r, rfl⟩ := h; exact ⟨_, .lit_ok l r⟩
    · exact ⟨_, .lit_fail l s h⟩
  | mtch cs rs =>
    cases s with
    | nil => exact ⟨_, .class_end _ _⟩
    | cons c r =>
      by_cases h : InClass cs rs c
      · exact ⟨_, .class_ok _ _ _ _ h⟩
      · exact ⟨_, .class_fail _ _ _ _ h⟩
  | error m => exact ⟨_, .error m s⟩
  | dot => cases s with
    | nil => exact ⟨_, .dot_end⟩
    | cons c r => exact ⟨_, .dot_ok _ _⟩
  | eof => cases s with
    | nil => exact ⟨_, .eof_ok⟩
    | cons c r => exact ⟨_, .eof_fail _ _⟩

/-- Finite work means that there is an outcome. -/
theorem effort_ends {G : Str → Option Expr} {t s c d} (h : Effort G t s c d) : Task.Ends G s t := by
  induction h with
  | simple a s => exact total_atom G a s
  | and _ ih => exact ih
  | or _ ih => exact ih
  | not _ ih =>
    obtain ⟨o, ih⟩ := ih
    cases o with
    | ok => exact ⟨_, .not_ok ih⟩
    | fail => exact ⟨_, .not_fail ih⟩
    | crit => exact ⟨_, .not_crit ih⟩
  | @rep e mn mx s c d _ ih => exact ih mn
  | call hg _ ih =>
    obtain ⟨o, ih⟩ := ih
    cases o with
    | ok => exact ⟨_, .call_ok hg ih⟩
    | fail => exact ⟨_, .call_fail hg ih⟩
    | crit => exact ⟨_, .call_crit hg ih⟩
  | missing hg => exact ⟨_, .call_missing hg⟩
  | seq_nil => exact ⟨_, .and_nil _⟩
  | seq_more _ hp _ _ ih =>
    obtain ⟨o, ih⟩ := ih
    cases o with
    | ok => exact ⟨_, .and_ok hp ih⟩
    | fail => exact ⟨_, .and_tail_fail hp ih⟩
    | crit => exact ⟨_, .and_tail_crit hp ih⟩
  | @seq_stop e es s o c d _ hp ho _ =>
    cases o with
    | ok => exact absurd rfl (ho _ _)
    | fail => exact ⟨_, .and_fail hp⟩
    | crit => exact ⟨_, .and_crit hp⟩
  | alt_nil => exact ⟨_, .or_nil _⟩
  | alt_more _ hp _ _ ih => obtain ⟨o, ih⟩ := ih; exact ⟨_, .or_next hp ih⟩
  | @alt_stop e es s o c d _ hp ho _ =>
    cases o with
    | ok => exact ⟨_, .or_ok hp⟩
    | fail => exact absurd rfl ho
    | crit => exact ⟨_, .or_crit hp⟩
  | loop_full => intro mn; exact ⟨_, .rep_full _ _ _⟩
  | loop_more hm _ hp _ _ ih =>
    intro mn
    obtain ⟨o, ih⟩ := ih (mn - 1)
    cases o with
    | ok => exact ⟨_, .rep_more hm hp ih⟩
    | fail => exact ⟨_, .rep_more_fail hm hp ih⟩
    | crit => exact ⟨_, .rep_more_crit hm hp ih⟩
  | @loop_stop e mx s o c d hm _ hp ho _ =>
    intro mn
    cases o with
    | ok => exact absurd rfl (ho _ _)
    | fail =>
      cases mn with
      | zero => exact ⟨_, .rep_stop hm hp⟩
      | succ mn => exact ⟨_, .rep_few hm (by omega) hp⟩
    | crit => exact ⟨_, .rep_crit hm hp⟩


/-! ### how deep -/

/-- What is needed of a relation "matching `e` may call rule `n`" to bound the depth; `c` is how much deeper it may get
with every character consumed. -/
structure Calling (G : Str → Option Expr) (N H c : Nat) (L : Expr → Str → Prop) : Prop where
  here : ∀ n, L (.ruleName n) n
  head : ∀ {e es n}, L e n → L (.and (e :: es)) n
  tail : ∀ {e es s r ns}, Peg G e s (.ok r ns) → (r.length < s.length ∧ c = N * H) ∨
    (r.length ≤ s.length ∧ ∀ n, L (.and es) n → L (.and (e :: es)) n)
  alt : ∀ {e es n}, e ∈ es → L e n → L (.or es) n
  not : ∀ {e n}, L e n → L (.not e) n
  rep : ∀ {e mn mx n}, L e n → L (.rep e mn mx) n
  acyclic : ∀ n, ¬ Relation.TransGen (fun n m => ∃ e, G n = some e ∧ L e m) n n

/-- the rules entered since the last character was consumed -/
structure OnPath (R : SetOfRules) (L : Expr → Str → Prop) (p : List Str) : Prop where
  nodup : p.Nodup
  known : ∀ x ∈ p, x ∈ R.entries.map Prod.fst

theorem OnPath.length_le {L p} (h : OnPath R L p) : p.length ≤ R.entries.length := by
  have := (List.subperm_of_subset h.nodup h.known).length_le
  simpa using this

theorem OnPath.nil {L} : OnPath R L [] := ⟨List.nodup_nil, by simp⟩

theorem key_of_get {n e} (h : R.get n = some e) : n ∈ R.entries.map Prod.fst := by
  obtain ⟨entries⟩ := R
  simp only [SetOfRules.get] at h
  induction entries with
  | nil => simp at h
  | cons x xs ih =>
    rw [List.lookup_cons] at h
    cases hx : (n == x.1) with
    | true => simp only [beq_iff_eq] at hx; simp [hx]
    | false => rw [hx] at h; simp only at h; exact List.mem_cons_of_mem _ (ih h)

theorem meter_depth {H c : Nat} {L : Expr → Str → Prop} (hL : Calling (denotes R) R.entries.length H c L)
    (hH : ∀ n e, R.get n = some e → height e ≤ H) (text : Str) : ∀ f,
    (∀ st n p, Inv text st → OnPath R L p →
      (∀ x ∈ p, Relation.TransGen (fun n m => ∃ e, denotes R n = some e ∧ L e m) x n) →
      (meterRuleName R f st n).2.depth ≤ (R.entries.length - p.length) * H + st.itParsing.length * c) ∧
    (∀ st e p, Inv text st → OnPath R L p →
      (∀ m, L (effective e) m → ∀ x ∈ p, Relation.TransGen (fun n m => ∃ e, denotes R n = some e ∧ L e m) x m) →
      (meterExpr R f st e).2.depth ≤ height e + ((R.entries.length - p.length) * H + st.itParsing.length * c)) ∧
    (∀ st es acc p, Inv text st → OnPath R L p →
      (∀ m, L (.and (effectives es)) m → ∀ x ∈ p, Relation.TransGen (fun n m => ∃ e, denotes R n = some e ∧ L e m) x m) →
      (meterAnd R f st es acc).2.depth ≤ heights es + ((R.entries.length - p.length) * H + st.itParsing.length * c)) ∧
    (∀ st es acc p, Inv text st → OnPath R L p →
      (∀ m, ∀ e ∈ es, L (effective e) m → ∀ x ∈ p, Relation.TransGen (fun n m => ∃ e, denotes R n = some e ∧ L e m) x m) →
      (meterOr R f st es acc).2.depth ≤ heights es + ((R.entries.length - p.length) * H + st.itParsing.length * c)) ∧
    (∀ e mn mx st k acc p, Inv text st → OnPath R L p →
      (∀ m, L (effective e) m → ∀ x ∈ p, Relation.TransGen (fun n m => ∃ e, denotes R n = some e ∧ L e m) x m) →
      (meterRepeat R f e mn mx st k acc).2.depth ≤
        height e + ((R.entries.length - p.length) * H + st.itParsing.length * c)) := by
  intro f
  induction f with
  | zero =>
    refine ⟨?_, ?_, ?_, ?_, ?_⟩ <;> intros
    · rw [meterRuleName]; exact Nat.zero_le _
    · rw [meterExpr]; exact Nat.zero_le _
    · rw [meterAnd]; exact Nat.zero_le _
    · rw [meterOr]; exact Nat.zero_le _
    · rw [meterRepeat]; exact Nat.zero_le _
  | succ f ih =>
    obtain ⟨ih1, ih2, ih3, ih4, ih5⟩ := ih
    refine ⟨?_, ?_, ?_, ?_, ?_⟩
    · intro st n p hI hp ht
      have hI' : Inv text (if st.traceRules then st.pushRule (c!"r:" ++ n) else st) := by
        split
        · exact ⟨hI.text, hI.at_⟩
        · exact hI
      have hit : (if st.traceRules then st.pushRule (c!"r:" ++ n) else st).itParsing = st.itParsing := by split <;> rfl
      rw [meterRuleName]
      generalize (if st.traceRules then st.pushRule (c!"r:" ++ n) else st) = st' at *
      cases hg : R.get n with
      | none => exact Nat.zero_le _
      | some e =>
        have hG : denotes R n = some (effective e) := by
          show (grammar R n).map effective = _
          rw [show grammar R n = some e from hg]; rfl
        have hn : n ∉ p := fun h => hL.acyclic n (ht n h)
        have hp' : OnPath R L (n :: p) := ⟨List.nodup_cons.mpr ⟨hn, hp.nodup⟩, by
          intro x hx
          rcases List.mem_cons.mp hx with h | h
          · rw [h]; exact key_of_get hg
          · exact hp.known x h⟩
        have hb := ih2 st' e (n :: p) hI' hp' (by
          intro m hm x hx
          rcases List.mem_cons.mp hx with h | h
          · rw [h]; exact .single ⟨_, hG, hm⟩
          · exact (ht x h).tail ⟨_, hG, hm⟩)
        have hle := hp'.length_le
        have he := hH n e hg
        rw [hit] at hb
        have : height e + ((R.entries.length - (n :: p).length) * H + st.itParsing.length * c) ≤
            (R.entries.length - p.length) * H + st.itParsing.length * c := by
          simp only [List.length_cons] at hle ⊢
          obtain ⟨k, hk⟩ : ∃ k, R.entries.length - p.length = k + 1 := ⟨R.entries.length - p.length - 1, by omega⟩
          rw [show R.entries.length - (p.length + 1) = k by omega, hk, Nat.add_mul]
          omega
        simp only
        rcases hx : meterExpr R f st' e with ⟨x | x | _ | _, m⟩ <;> rw [hx] at hb <;> simp only at hb ⊢ <;> omega
    · intro st e p hI hp ht
      cases e with
      | simple a => rw [meterExpr, height]; simp only [Meter.enter, Meter.zero]; omega
      | and es =>
        rw [meterExpr, height]
        have := ih3 st es [] p hI hp (by rw [effective] at ht; exact ht)
        simp only [Meter.enter]; omega
      | or es =>
        rw [meterExpr, height]
        have := ih4 st es none p hI hp (by
          rw [effective] at ht
          intro m e he hm
          exact ht m (hL.alt (by rw [effectives_eq_map]; exact List.mem_map_of_mem he) hm))
        simp only [Meter.enter]; omega
      | not e =>
        rw [meterExpr, height]
        have := ih2 st e p hI hp (by rw [effective] at ht; exact fun m hm => ht m (hL.not hm))
        rcases hx : meterExpr R f st e with ⟨x | x | _ | _, m⟩ <;> rw [hx] at this <;>
          simp only [Meter.enter] at this ⊢ <;> omega
      | rep e mn mx =>
        rw [meterExpr, height]
        obtain ⟨mn', h⟩ := effective_rep e mn mx
        rw [h] at ht
        have := ih5 e mn mx st 0 [] p hI hp (fun m hm => ht m (hL.rep hm))
        simp only [Meter.enter]; omega
      | ruleName n =>
        rw [meterExpr, height]
        rw [effective] at ht
        have := ih1 st n p hI hp (ht n (hL.here n))
        rcases hx : meterRuleName R f st n with ⟨x | x | _ | _, m⟩ <;> rw [hx] at this <;>
          simp only [Meter.enter] at this ⊢ <;> omega
    · intro st es acc p hI hp ht
      cases es with
      | nil => rw [meterAnd]; exact Nat.zero_le _
      | cons e es =>
        rw [meterAnd, heights]
        rw [effectives] at ht
        have h1 := ih2 st e p hI hp (fun m hm => ht m (hL.head hm))
        have h2 := peg_of_sound (f := f) (e := e) hI ((meter_erase R f).2.1 st e).symm
        have h3 := fun x (h : (meterExpr R f st e).1 = .ok x) => inv_after hI (((meter_erase R f).2.1 st e).symm.trans h)
        revert h1 h2 h3
        rcases meterExpr R f st e with ⟨x | x | _ | _, m⟩
        · intro h1 h2 h3
          simp only [Meter.andThen] at h1 ⊢
          rcases hL.tail (es := effectives es) (show Peg _ _ _ _ from h2) with ⟨h4, h5⟩ | ⟨h4, h5⟩
          · have h6 := ih3 x.1 es (acc ++ x.2) [] (h3 x rfl) .nil (by simp)
            have : R.entries.length * H + x.1.itParsing.length * c ≤ st.itParsing.length * c := by
              obtain ⟨k, hk⟩ := Nat.le.dest (Nat.succ_le_of_lt h4)
              rw [← hk, ← h5, Nat.add_mul, Nat.succ_mul]; omega
            simp only [List.length_nil, Nat.sub_zero] at h6
            omega
          · have h6 := ih3 x.1 es (acc ++ x.2) p (h3 x rfl) hp (fun m hm => ht m (h5 m hm))
            have := Nat.mul_le_mul_right c h4
            omega
        all_goals intro h1 _ _; simp only at h1 ⊢; omega
    · intro st es acc p hI hp ht
      cases es with
      | nil => cases acc <;> rw [meterOr] <;> exact Nat.zero_le _
      | cons e es =>
        rw [meterOr, heights]
        have h1 := ih2 st e p hI hp (fun m hm => ht m e (by simp) hm)
        revert h1
        rcases meterExpr R f st e with ⟨x | x | _ | _, m⟩ <;> intro h1 <;> simp only at h1 ⊢
        · omega
        · split
          · simp only; omega
          · have h6 := ih4 st es (deepErr acc x) p hI hp (fun m e he hm => ht m e (by simp [he]) hm)
            simp only [Meter.andThen]; omega
        all_goals omega
    · intro e mn mx st k acc p hI hp ht
      rw [meterRepeat]
      have h1 := ih2 st e p hI hp ht
      have h2 := peg_of_sound (f := f) (e := e) hI ((meter_erase R f).2.1 st e).symm
      have h3 := fun x (h : (meterExpr R f st e).1 = .ok x) => inv_after hI (((meter_erase R f).2.1 st e).symm.trans h)
      revert h1 h2 h3
      rcases meterExpr R f st e with ⟨x | x | _ | _, m⟩ <;> intro h1 h2 h3 <;> simp only at h1 ⊢
      · split
        · exact h1
        · have h6 := ih5 e mn mx x.1 (k + 1) (acc ++ x.2) p (h3 x rfl) hp ht
          have := Nat.mul_le_mul_right c (peg_length (show Peg _ _ _ (.ok _ _) from h2) _ _ rfl).1
          simp only [Meter.andThen]; omega
      · split
        · split <;> exact h1
        · exact h1
      all_goals exact h1

/-- No left recursion. -/
theorem calling_left {G : Str → Option Expr} (N H : Nat) (h : ∀ n, ¬ Relation.TransGen (LeftStep G) n n) :
    Calling G N H (N * H) (LeftCalls G) where
  here := .here
  head h := .and (pre := []) (by simp) h
  tail {e es s r ns} hp := by
    obtain ⟨h1, h2⟩ := peg_length hp r ns rfl
    rcases Nat.lt_or_ge r.length s.length with h3 | h3
    · exact Or.inl ⟨h3, rfl⟩
    · refine Or.inr ⟨h1, ?_⟩
      have hce := h2 (by omega)
      intro n hn
      cases hn with
      | @and pre x post _ hp hx =>
        refine LeftCalls.and (pre := e :: pre) ?_ hx
        intro y hy
        rcases List.mem_cons.mp hy with rfl | hy
        · exact hce
        · exact hp y hy
  alt := .or
  not := .not
  rep := .rep
  acyclic := h

/-- No recursion at all. -/
theorem calling_refs {G : Str → Option Expr} (N H : Nat)
    (h : ∀ n, ¬ Relation.TransGen (fun n m => ∃ e, G n = some e ∧ Refs e m) n n) : Calling G N H 0 Refs where
  here := .here
  head h := .and (by simp) h
  tail {e es s r ns} hp := by
    refine Or.inr ⟨(peg_length hp r ns rfl).1, ?_⟩
    intro n hn
    cases hn with
    | and hm hx => exact .and (by simp [hm]) hx
  alt := .or
  not := .not
  rep := .rep
  acyclic := h

/-! ### how often -/

theorem pow_enter {K c d n : Nat} (hn : n ≤ K) (h : c ≤ n * (K + 1) ^ d) : c + 1 ≤ (K + 1) ^ (d + 1) := by
  have h1 : 1 ≤ (K + 1) ^ d := Nat.one_le_pow _ _ (by omega)
  have h2 := Nat.mul_le_mul_right ((K + 1) ^ d) hn
  rw [Nat.pow_succ, Nat.mul_comm, Nat.add_mul]
  omega

theorem pow_then {K c d c' d' n : Nat} (h : c ≤ (K + 1) ^ d) (h' : c' ≤ n * (K + 1) ^ d') :
    c + c' ≤ (n + 1) * (K + 1) ^ (max d d') := by
  have h1 : (K + 1) ^ d ≤ (K + 1) ^ (max d d') := Nat.pow_le_pow_right (by omega) (by omega)
  have h2 : (K + 1) ^ d' ≤ (K + 1) ^ (max d d') := Nat.pow_le_pow_right (by omega) (by omega)
  have h3 := Nat.mul_le_mul_left n h2
  rw [Nat.add_mul]; omega

/-- rounds a repetition may still make -/
def rounds (st : Status) : Option Nat → Nat → Nat
  | some (m + 1), k => m + 1 - k
  | _, _ => st.itParsing.length + 1

theorem meter_calls {K len : Nat} (hK : len + 1 ≤ K) (hW : ∀ n e, R.get n = some e → width e ≤ K)
    (hR : ∀ n e, R.get n = some e → RepOK (denotes R) (effective e)) (text : Str) : ∀ f,
    (∀ st n, Inv text st → st.itParsing.length ≤ len →
      (meterRuleName R f st n).2.calls ≤ (K + 1) ^ (meterRuleName R f st n).2.depth) ∧
    (∀ st e, Inv text st → st.itParsing.length ≤ len → width e ≤ K → RepOK (denotes R) (effective e) →
      (meterExpr R f st e).2.calls ≤ (K + 1) ^ (meterExpr R f st e).2.depth) ∧
    (∀ st es acc, Inv text st → st.itParsing.length ≤ len → widths es ≤ K → (∀ e ∈ es, RepOK (denotes R) (effective e)) →
      (meterAnd R f st es acc).2.calls ≤ es.length * (K + 1) ^ (meterAnd R f st es acc).2.depth) ∧
    (∀ st es acc, Inv text st → st.itParsing.length ≤ len → widths es ≤ K → (∀ e ∈ es, RepOK (denotes R) (effective e)) →
      (meterOr R f st es acc).2.calls ≤ es.length * (K + 1) ^ (meterOr R f st es acc).2.depth) ∧
    (∀ e mn mx st k acc, Inv text st → st.itParsing.length ≤ len → width e ≤ K → RepOK (denotes R) (effective e) →
      (∀ m, mx = some (m + 1) → k < m + 1) → ((∀ m, mx ≠ some (m + 1)) → ¬ CanEmpty (denotes R) (effective e)) →
      (meterRepeat R f e mn mx st k acc).2.calls ≤
        rounds st mx k * (K + 1) ^ (meterRepeat R f e mn mx st k acc).2.depth) := by
  intro f
  induction f with
  | zero =>
    refine ⟨?_, ?_, ?_, ?_, ?_⟩ <;> intros
    · rw [meterRuleName]; exact Nat.zero_le _
    · rw [meterExpr]; exact Nat.zero_le _
    · rw [meterAnd]; exact Nat.zero_le _
    · rw [meterOr]; exact Nat.zero_le _
    · rw [meterRepeat]; exact Nat.zero_le _
  | succ f ih =>
    obtain ⟨ih1, ih2, ih3, ih4, ih5⟩ := ih
    refine ⟨?_, ?_, ?_, ?_, ?_⟩
    · intro st n hI hlen
      have hI' : Inv text (if st.traceRules then st.pushRule (c!"r:" ++ n) else st) := by
        split
        · exact ⟨hI.text, hI.at_⟩
        · exact hI
      have hit : (if st.traceRules then st.pushRule (c!"r:" ++ n) else st).itParsing = st.itParsing := by split <;> rfl
      rw [meterRuleName]
      generalize (if st.traceRules then st.pushRule (c!"r:" ++ n) else st) = st' at *
      cases hg : R.get n with
      | none => exact Nat.zero_le _
      | some e =>
        have hb := ih2 st' e hI' (by rw [hit]; exact hlen) (hW n e hg) (hR n e hg)
        simp only
        rcases hx : meterExpr R f st' e with ⟨x | x | _ | _, m⟩ <;> rw [hx] at hb <;> exact hb
    · intro st e hI hlen hw hr
      cases e with
      | simple a => rw [meterExpr]; simp [Meter.enter, Meter.zero]
      | and es =>
        rw [meterExpr]
        rw [width] at hw
        rw [effective, effectives_eq_map] at hr
        exact pow_enter (by omega) (ih3 st es [] hI hlen (by omega) fun e he => repOK_and hr _ (List.mem_map_of_mem he))
      | or es =>
        rw [meterExpr]
        rw [width] at hw
        rw [effective, effectives_eq_map] at hr
        exact pow_enter (by omega) (ih4 st es none hI hlen (by omega) fun e he => fun b mn h => hr b mn (.or (List.mem_map_of_mem he) h))
      | not e =>
        rw [meterExpr]
        rw [width] at hw
        rw [effective] at hr
        have := ih2 st e hI hlen (by omega) (fun b mn h => hr b mn (.not h))
        rcases hx : meterExpr R f st e with ⟨x | x | _ | _, m⟩ <;> rw [hx] at this <;>
          exact pow_enter (n := 1) (by omega) (by rw [Nat.one_mul]; exact this)
      | rep e mn mx =>
        rw [meterExpr]
        obtain ⟨mn', h⟩ := effective_rep e mn mx
        rw [h] at hr
        have hw' : width e ≤ K ∧ rounds st mx 0 ≤ K := by
          match mx with
          | none => rw [width] at hw; simp only [rounds]; omega
          | some 0 => rw [width] at hw; simp only [rounds]; omega
          | some (m + 1) => rw [width] at hw; simp only [rounds]; omega
        refine pow_enter hw'.2 (ih5 e mn mx st 0 [] hI hlen hw'.1 (fun b mn h => hr b mn (.rep h)) (by omega) ?_)
        intro hm
        match mx with
        | none => exact hr _ mn' (.refl _)
        | some 0 => exact hr _ mn' (.refl _)
        | some (m + 1) => exact absurd rfl (hm m)
      | ruleName n =>
        rw [meterExpr]
        have := ih1 st n hI hlen
        rcases hx : meterRuleName R f st n with ⟨x | x | _ | _, m⟩ <;> rw [hx] at this <;>
          exact pow_enter (n := 1) (by omega) (by rw [Nat.one_mul]; exact this)
    · intro st es acc hI hlen hw hr
      cases es with
      | nil => rw [meterAnd]; exact Nat.zero_le _
      | cons e es =>
        rw [meterAnd]
        rw [widths] at hw
        have h1 := ih2 st e hI hlen (by omega) (hr e (by simp))
        have h2 := peg_of_sound (f := f) (e := e) hI ((meter_erase R f).2.1 st e).symm
        have h3 := fun x (h : (meterExpr R f st e).1 = .ok x) => inv_after hI (((meter_erase R f).2.1 st e).symm.trans h)
        revert h1 h2 h3
        rcases meterExpr R f st e with ⟨x | x | _ | _, m⟩
        · intro h1 h2 h3
          have hl := (peg_length (show Peg _ _ _ (.ok _ _) from h2) _ _ rfl).1
          exact pow_then h1 (ih3 x.1 es (acc ++ x.2) (h3 x rfl) (by omega) (by omega) (fun e he => hr e (by simp [he])))
        all_goals
          intro h1 _ _
          exact h1.trans (Nat.le_mul_of_pos_left _ (by simp))
    · intro st es acc hI hlen hw hr
      cases es with
      | nil => cases acc <;> rw [meterOr] <;> exact Nat.zero_le _
      | cons e es =>
        rw [meterOr]
        rw [widths] at hw
        have h1 := ih2 st e hI hlen (by omega) (hr e (by simp))
        revert h1
        rcases meterExpr R f st e with ⟨x | x | _ | _, m⟩
        · intro h1
          exact h1.trans (Nat.le_mul_of_pos_left _ (by simp))
        · intro h1
          simp only
          split
          · exact h1.trans (Nat.le_mul_of_pos_left _ (by simp))
          · exact pow_then h1 (ih4 st es _ hI hlen (by omega) (fun e he => hr e (by simp [he])))
        all_goals
          intro h1
          exact h1.trans (Nat.le_mul_of_pos_left _ (by simp))
    · intro e mn mx st k acc hI hlen hw hr hk hne
      rw [meterRepeat]
      have h0 : 1 ≤ rounds st mx k := by
        match mx with
        | none => simp only [rounds]; omega
        | some 0 => simp only [rounds]; omega
        | some (m + 1) => have := hk m rfl; simp only [rounds]; omega
      have h1 := ih2 st e hI hlen hw hr
      have h2 := peg_of_sound (f := f) (e := e) hI ((meter_erase R f).2.1 st e).symm
      have h3 := fun x (h : (meterExpr R f st e).1 = .ok x) => inv_after hI (((meter_erase R f).2.1 st e).symm.trans h)
      revert h1 h2 h3
      rcases meterExpr R f st e with ⟨x | x | _ | _, m⟩
      · intro h1 h2 h3
        simp only
        cases ht : touchMaxBound mx k with
        | true => rw [if_pos rfl]; exact h1.trans (Nat.le_mul_of_pos_left _ h0)
        | false =>
          simp only [Bool.false_eq_true, if_false]
          obtain ⟨hl, hl'⟩ := peg_length (show Peg _ _ _ (.ok _ _) from h2) _ _ rfl
          obtain ⟨_, h5⟩ := roundsLeft_next ht hk
          have := pow_then h1 (ih5 e mn mx x.1 (k + 1) (acc ++ x.2) (h3 x rfl) (by omega) hw hr h5 hne)
          refine this.trans (Nat.mul_le_mul_right _ ?_)
          match mx with
          | none =>
            have := mt hl' (hne (by simp))
            simp only [rounds]; omega
          | some 0 =>
            have := mt hl' (hne (by simp))
            simp only [rounds]; omega
          | some (m + 1) => have := hk m rfl; simp only [rounds]; omega
      · intro h1 h2 h3
        have := h1.trans (Nat.le_mul_of_pos_left _ h0)
        simp only
        split
        · split <;> exact this
        · exact this
      all_goals
        intro h1 _ _
        exact h1.trans (Nat.le_mul_of_pos_left _ h0)

variable (R)

/-- Running on means calling on. -/
theorem meter_busy : ∀ f,
    (∀ st n, (meterRuleName R f st n).1 = .diverge → f ≤ 2 * (meterRuleName R f st n).2.calls + 1) ∧
    (∀ st e, ((meterExpr R f st e).1 = .diverge → f ≤ 2 * (meterExpr R f st e).2.calls) ∧
      (f ≠ 0 → 1 ≤ (meterExpr R f st e).2.calls)) ∧
    (∀ st es acc, (meterAnd R f st es acc).1 = .diverge → f ≤ 2 * (meterAnd R f st es acc).2.calls + 1) ∧
    (∀ st es acc, (meterOr R f st es acc).1 = .diverge → f ≤ 2 * (meterOr R f st es acc).2.calls + 1) ∧
    (∀ e mn mx st k acc, (meterRepeat R f e mn mx st k acc).1 = .diverge →
      f ≤ 2 * (meterRepeat R f e mn mx st k acc).2.calls + 1) := by
  intro f
  induction f with
  | zero =>
    refine ⟨?_, ?_, ?_, ?_, ?_⟩ <;> intros
    · omega
    · exact ⟨fun _ => Nat.zero_le _, fun h => absurd rfl h⟩
    all_goals omega
  | succ f ih =>
    obtain ⟨ih1, ih2, ih3, ih4, ih5⟩ := ih
    have hraise : ∀ {α} (st d p), (raise st d p : Out Error α) ≠ .diverge := fun st d p => raise_diverge
    refine ⟨?_, ?_, ?_, ?_, ?_⟩
    · intro st n
      rw [meterRuleName]
      generalize (if st.traceRules then st.pushRule (c!"r:" ++ n) else st) = st' at *
      cases hg : R.get n with
      | none => intro h; exact absurd h (hraise _ _ _)
      | some e =>
        have hb := (ih2 st' e).1
        simp only
        rcases hx : meterExpr R f st' e with ⟨x | x | _ | _, m⟩ <;> rw [hx] at hb <;> intro h <;>
          first | (have := hb rfl; simp only at this ⊢; omega) | (exact absurd h (by simp))
    · intro st e
      cases e with
      | simple a =>
        rw [meterExpr]
        exact ⟨fun h => absurd h (atom_ne_diverge _ _), fun _ => by simp [Meter.enter, Meter.zero]⟩
      | and es =>
        rw [meterExpr]
        have := ih3 st es []
        refine ⟨fun h => ?_, fun _ => by simp [Meter.enter]⟩
        have := this h; simp only [Meter.enter]; omega
      | or es =>
        rw [meterExpr]
        have := ih4 st es none
        refine ⟨fun h => ?_, fun _ => by simp [Meter.enter]⟩
        have := this h; simp only [Meter.enter]; omega
      | not e =>
        rw [meterExpr]
        have hb := (ih2 st e).1
        rcases hx : meterExpr R f st e with ⟨x | x | _ | _, m⟩ <;> rw [hx] at hb <;>
          refine ⟨fun h => ?_, fun _ => by simp [Meter.enter]⟩
        · exact absurd h (hraise _ _ _)
        · exact absurd h (by simp)
        · exact absurd h (by simp)
        · have := hb rfl; simp only [Meter.enter] at this ⊢; omega
      | rep e mn mx =>
        rw [meterExpr]
        have := ih5 e mn mx st 0 []
        refine ⟨fun h => ?_, fun _ => by simp [Meter.enter]⟩
        have := this h; simp only [Meter.enter]; omega
      | ruleName n =>
        rw [meterExpr]
        have hb := ih1 st n
        rcases hx : meterRuleName R f st n with ⟨x | x | _ | _, m⟩ <;> rw [hx] at hb <;>
          refine ⟨fun h => ?_, fun _ => by simp [Meter.enter]⟩
        · exact absurd h (by simp)
        · exact absurd h (by simp)
        · exact absurd h (by simp)
        · have := hb rfl; simp only [Meter.enter] at this ⊢; omega
    · intro st es acc
      cases es with
      | nil => rw [meterAnd]; intro h; exact absurd h (by simp)
      | cons e es =>
        rw [meterAnd]
        have hb := ih2 st e
        have h0 : f = 0 → (meterExpr R f st e).1 = .diverge := by intro h; rw [h, meterExpr]
        rcases hx : meterExpr R f st e with ⟨x | x | _ | _, m⟩ <;> rw [hx] at hb h0 <;> intro h
        · have h1 := ih3 x.1 es (acc ++ x.2) h
          have := hb.2 (fun h => absurd (h0 h) (by simp))
          simp only [Meter.andThen] at this ⊢; omega
        · exact absurd h (by simp)
        · exact absurd h (by simp)
        · have := hb.1 rfl; simp only at this ⊢; omega
    · intro st es acc
      cases es with
      | nil =>
        cases acc <;> rw [meterOr] <;> intro h
        · exact absurd h (hraise _ _ _)
        · exact absurd h (by simp)
      | cons e es =>
        rw [meterOr]
        have hb := ih2 st e
        have h0 : f = 0 → (meterExpr R f st e).1 = .diverge := by intro h; rw [h, meterExpr]
        rcases hx : meterExpr R f st e with ⟨x | x | _ | _, m⟩ <;> rw [hx] at hb h0 <;> intro h
        · exact absurd h (by simp)
        · simp only at h ⊢
          split at h
          · exact absurd h (by simp)
          · rename_i hc
            rw [if_neg hc]
            have h1 := ih4 st es (deepErr acc x) h
            have := hb.2 (fun h => absurd (h0 h) (by simp))
            simp only [Meter.andThen] at this ⊢; omega
        · exact absurd h (by simp)
        · have := hb.1 rfl; simp only at this ⊢; omega
    · intro e mn mx st k acc
      rw [meterRepeat]
      have hb := ih2 st e
      have h0 : f = 0 → (meterExpr R f st e).1 = .diverge := by intro h; rw [h, meterExpr]
      rcases hx : meterExpr R f st e with ⟨x | x | _ | _, m⟩ <;> rw [hx] at hb h0 <;> intro h
      · simp only at h ⊢
        split at h
        · exact absurd h (by simp)
        · rename_i hc
          rw [if_neg hc]
          have h1 := ih5 e mn mx x.1 (k + 1) (acc ++ x.2) h
          have := hb.2 (fun h => absurd (h0 h) (by simp))
          simp only [Meter.andThen] at this ⊢; omega
      · simp only at h
        split at h
        · split at h <;> exact absurd h (by simp)
        · exact absurd h (by simp)
      · exact absurd h (by simp)
      · have := hb.1 rfl; simp only at this ⊢; omega

end DP
