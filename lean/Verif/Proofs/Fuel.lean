/-
Fuel monotonicity, and the meaning of `limit`.
-/
import Verif.Model.Parser

namespace DP

/-- `x ⊑ y`: `x` is unfinished or equal to `y`. -/
def Out.le {ε α : Type} (x y : Out ε α) : Prop := x = .diverge ∨ x = y

theorem Out.le_refl {ε α} (x : Out ε α) : Out.le x x := Or.inr rfl

theorem limit_of {ε α : Type} {F : Nat → Out ε α} (hm : ∀ f, Out.le (F f) (F (f + 1)))
    {n : Nat} {x : Out ε α} (hx : F n = x) (hd : x ≠ .diverge) : limit F = x := by
  have hmono : ∀ k n, Out.le (F n) (F (n + k)) := by
    intro k
    induction k with
    | zero => intro n; exact Or.inr rfl
    | succ k ih =>
      intro n
      rcases ih n with h | h
      · exact Or.inl h
      · rcases hm (n + k) with h' | h'
        · left; rw [h, h']
        · right; rw [h, h']; rfl
  have hex : ∃ n, F n ≠ .diverge := ⟨n, by rw [hx]; exact hd⟩
  unfold limit
  rw [dif_pos hex]
  have hc := Classical.choose_spec hex
  generalize Classical.choose hex = m at hc
  rcases Nat.le_total m n with h | h
  · obtain ⟨k, rfl⟩ := Nat.exists_eq_add_of_le h
    rcases hmono k m with h' | h'
    · exact absurd h' hc
    · rw [h', hx]
  · obtain ⟨k, rfl⟩ := Nat.exists_eq_add_of_le h
    rcases hmono k n with h' | h'
    · rw [hx] at h'; exact absurd h' hd
    · rw [← h', hx]

theorem limit_elim {ε α : Type} (F : Nat → Out ε α) :
    (limit F = .diverge ∧ ∀ n, F n = .diverge) ∨ (∃ n, F n = limit F ∧ limit F ≠ .diverge) := by
  unfold limit
  by_cases h : ∃ n, F n ≠ .diverge
  · rw [dif_pos h]
    exact Or.inr ⟨_, rfl, Classical.choose_spec h⟩
  · rw [dif_neg h]
    refine Or.inl ⟨rfl, fun n => ?_⟩
    by_cases hn : F n = .diverge
    · exact hn
    · exact absurd ⟨n, hn⟩ h

theorem limit_ne {ε α : Type} {F : Nat → Out ε α} {x : Out ε α} (h : limit F = x)
    (hd : x ≠ .diverge) : ∃ n, F n = x := by
  rcases limit_elim F with ⟨h1, _⟩ | ⟨n, hn, _⟩
  · rw [h] at h1; exact absurd h1 hd
  · exact ⟨n, by rw [hn, h]⟩

theorem limit_diverge_iff {ε α : Type} (F : Nat → Out ε α) :
    limit F = .diverge ↔ ∀ n, F n = .diverge := by
  rcases limit_elim F with ⟨h1, h2⟩ | ⟨n, hn, hne⟩
  · exact ⟨fun _ => h2, fun _ => h1⟩
  · exact ⟨fun h => absurd h hne, fun h => by rw [← hn]; exact h n⟩

/-- One more unit of fuel does not change a finished result. -/
theorem fuel_step (R : SetOfRules) : ∀ f,
    (∀ st n, Out.le (parseRuleName R f st n) (parseRuleName R (f+1) st n)) ∧
    (∀ st e, Out.le (parseExpr R f st e) (parseExpr R (f+1) st e)) ∧
    (∀ st es acc, Out.le (parseAnd R f st es acc) (parseAnd R (f+1) st es acc)) ∧
    (∀ st es acc, Out.le (parseOr R f st es acc) (parseOr R (f+1) st es acc)) ∧
    (∀ e mn mx st k acc,
      Out.le (parseRepeat R f e mn mx st k acc) (parseRepeat R (f+1) e mn mx st k acc)) := by
  intro f
  induction f with
  | zero =>
    refine ⟨?_, ?_, ?_, ?_, ?_⟩ <;> intros <;> left
    · simp [parseRuleName]
    · simp [parseExpr]
    · simp [parseAnd]
    · simp [parseOr]
    · simp [parseRepeat]
  | succ f ih =>
    obtain ⟨ih1, ih2, ih3, ih4, ih5⟩ := ih
    refine ⟨?_, ?_, ?_, ?_, ?_⟩
    · intro st n
      rw [parseRuleName, parseRuleName]
      cases R.get n with
      | none => exact Or.inr rfl
      | some e =>
        simp only
        rcases ih2 (if st.traceRules = true then st.pushRule (c!"r:" ++ n) else st) e with h | h
        · left; rw [h]
        · right; rw [h]
    · intro st e
      cases e with
      | simple a => right; rw [parseExpr, parseExpr]
      | and es => rw [parseExpr, parseExpr]; exact ih3 st es []
      | or es => rw [parseExpr, parseExpr]; exact ih4 st es none
      | not e =>
        rw [parseExpr, parseExpr]
        rcases ih2 st e with h | h
        · left; rw [h]
        · right; rw [h]
      | rep e mn mx => rw [parseExpr, parseExpr]; exact ih5 e mn mx st 0 []
      | ruleName n =>
        rw [parseExpr, parseExpr]
        rcases ih1 st n with h | h
        · left; rw [h]
        · right; rw [h]
    · intro st es acc
      cases es with
      | nil => right; rw [parseAnd, parseAnd]
      | cons e es =>
        rw [parseAnd, parseAnd]
        rcases ih2 st e with h | h
        · left; rw [h]
        · rw [← h]
          cases parseExpr R f st e with
          | ok a => exact ih3 _ _ _
          | err e => exact Or.inr rfl
          | panic => exact Or.inr rfl
          | diverge => exact Or.inr rfl
    · intro st es acc
      cases es with
      | nil => right; cases acc <;> rw [parseOr, parseOr]
      | cons e es =>
        rw [parseOr, parseOr]
        rcases ih2 st e with h | h
        · left; rw [h]
        · rw [← h]
          cases parseExpr R f st e with
          | ok a => exact Or.inr rfl
          | err e =>
            simp only
            split
            · exact Or.inr rfl
            · exact ih4 _ _ _
          | panic => exact Or.inr rfl
          | diverge => exact Or.inr rfl
    · intro e mn mx st k acc
      rw [parseRepeat, parseRepeat]
      rcases ih2 st e with h | h
      · left; rw [h]
      · rw [← h]
        cases parseExpr R f st e with
        | ok a =>
          simp only
          split
          · exact Or.inr rfl
          · exact ih5 _ _ _ _ _ _
        | err e => exact Or.inr rfl
        | panic => exact Or.inr rfl
        | diverge => exact Or.inr rfl

theorem mono_of_step {ε α : Type} {F : Nat → Out ε α} (hm : ∀ f, Out.le (F f) (F (f + 1)))
    {f g : Nat} (hfg : f ≤ g) {x} (hx : F f = x) (hd : x ≠ .diverge) : F g = x := by
  obtain ⟨k, rfl⟩ := Nat.exists_eq_add_of_le hfg
  induction k with
  | zero => exact hx
  | succ k ih =>
    have h1 := ih (Nat.le_add_right _ _)
    rcases hm (f + k) with h | h
    · rw [h1] at h; exact absurd h hd
    · rw [h1] at h; exact h.symm

theorem parseRuleName_mono {R : SetOfRules} {f g st n x} (h : f ≤ g)
    (hx : parseRuleName R f st n = x) (hd : x ≠ .diverge) : parseRuleName R g st n = x :=
  mono_of_step (F := fun f => parseRuleName R f st n) (fun f => (fuel_step R f).1 st n) h hx hd

theorem parseExpr_mono {R : SetOfRules} {f g st e x} (h : f ≤ g)
    (hx : parseExpr R f st e = x) (hd : x ≠ .diverge) : parseExpr R g st e = x :=
  mono_of_step (F := fun f => parseExpr R f st e) (fun f => (fuel_step R f).2.1 st e) h hx hd

theorem parseAnd_mono {R : SetOfRules} {f g st es acc x} (h : f ≤ g)
    (hx : parseAnd R f st es acc = x) (hd : x ≠ .diverge) : parseAnd R g st es acc = x :=
  mono_of_step (F := fun f => parseAnd R f st es acc) (fun f => (fuel_step R f).2.2.1 st es acc) h hx hd

theorem parseOr_mono {R : SetOfRules} {f g st es acc x} (h : f ≤ g)
    (hx : parseOr R f st es acc = x) (hd : x ≠ .diverge) : parseOr R g st es acc = x :=
  mono_of_step (F := fun f => parseOr R f st es acc) (fun f => (fuel_step R f).2.2.2.1 st es acc) h hx hd

theorem parseRepeat_mono {R : SetOfRules} {f g e mn mx st k acc x} (h : f ≤ g)
    (hx : parseRepeat R f e mn mx st k acc = x) (hd : x ≠ .diverge) :
    parseRepeat R g e mn mx st k acc = x :=
  mono_of_step (F := fun f => parseRepeat R f e mn mx st k acc)
    (fun f => (fuel_step R f).2.2.2.2 e mn mx st k acc) h hx hd

theorem parseWithDebugF_step (s : Str) (R : SetOfRules) (b : Bool) (f : Nat) :
    Out.le (parseWithDebugF f s R b) (parseWithDebugF (f+1) s R b) := by
  unfold parseWithDebugF parseMain
  have h : Out.le
      (if b = true then parseRuleName R f (Status.initDebug s b) c!"main"
        else parseRuleName R f (Status.init s) c!"main")
      (if b = true then parseRuleName R (f+1) (Status.initDebug s b) c!"main"
        else parseRuleName R (f+1) (Status.init s) c!"main") := by
    split <;> exact (fuel_step R f).1 _ _
  rcases h with h | h
  · left; rw [h]
  · right; rw [h]

/-- A finished run of the fuelled parser gives the value of `parse`. -/
theorem parse_of_fuel {s R f x} (h : parseWithDebugF f s R false = x) (hd : x ≠ .diverge) :
    parse s R = x :=
  limit_of (F := fun f => parseWithDebugF f s R false) (parseWithDebugF_step s R false) h hd

theorem parseDebug_of_fuel {s R f x} (h : parseWithDebugF f s R true = x) (hd : x ≠ .diverge) :
    parseDebug s R = x :=
  limit_of (F := fun f => parseWithDebugF f s R true) (parseWithDebugF_step s R true) h hd

theorem fuel_of_parse {s R x} (h : parse s R = x) (hd : x ≠ .diverge) :
    ∃ f, parseWithDebugF f s R false = x := limit_ne h hd

theorem fuel_of_parseDebug {s R x} (h : parseDebug s R = x) (hd : x ≠ .diverge) :
    ∃ f, parseWithDebugF f s R true = x := limit_ne h hd

end DP
