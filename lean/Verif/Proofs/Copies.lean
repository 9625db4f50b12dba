/-
Counting the copied characters does not disturb the parser; how many they are at most.
-/
import Verif.Model.Copies
import Verif.Proofs.Meter
import Verif.Proofs.Position

namespace DP
open Spec

variable (R : SetOfRules)

/-- Without the count these are the parsing functions. -/
theorem copies_erase : ∀ f,
    (∀ st n, (copiesRuleName R f st n).1 = parseRuleName R f st n) ∧
    (∀ st e, (copiesExpr R f st e).1 = parseExpr R f st e) ∧
    (∀ st es acc, (copiesAnd R f st es acc).1 = parseAnd R f st es acc) ∧
    (∀ st es acc, (copiesOr R f st es acc).1 = parseOr R f st es acc) ∧
    (∀ e mn mx st k acc, (copiesRepeat R f e mn mx st k acc).1 = parseRepeat R f e mn mx st k acc) := by
  intro f
  induction f with
  | zero =>
    refine ⟨?_, ?_, ?_, ?_, ?_⟩ <;> intros
    · rw [copiesRuleName, parseRuleName]
    · rw [copiesExpr, parseExpr]
    · rw [copiesAnd, parseAnd]
    · rw [copiesOr, parseOr]
    · rw [copiesRepeat, parseRepeat]
  | succ f ih =>
    obtain ⟨ih1, ih2, ih3, ih4, ih5⟩ := ih
    refine ⟨?_, ?_, ?_, ?_, ?_⟩
    · intro st n
      rw [copiesRuleName, parseRuleName]
      cases R.get n with
      | none => rfl
      | some e =>
        simp only
        rw [← ih2]
        rcases copiesExpr R f _ e with ⟨x | x | _ | _, m⟩ <;> rfl
    · intro st e
      cases e with
      | simple a => rw [copiesExpr, parseExpr]
      | and es => rw [copiesExpr, parseExpr, ← ih3]
      | or es => rw [copiesExpr, parseExpr, ← ih4]
      | not e =>
        rw [copiesExpr, parseExpr, ← ih2]
        rcases copiesExpr R f st e with ⟨x | x | _ | _, m⟩ <;> rfl
      | rep e mn mx => rw [copiesExpr, parseExpr, ← ih5]
      | ruleName n =>
        rw [copiesExpr, parseExpr, ← ih1]
        rcases copiesRuleName R f st n with ⟨x | x | _ | _, m⟩ <;> rfl
    · intro st es acc
      cases es with
      | nil => rw [copiesAnd, parseAnd]
      | cons e es =>
        rw [copiesAnd, parseAnd, ← ih2]
        rcases copiesExpr R f st e with ⟨x | x | _ | _, m⟩
        · exact ih3 _ _ _
        all_goals rfl
    · intro st es acc
      cases es with
      | nil => cases acc <;> rw [copiesOr, parseOr]
      | cons e es =>
        rw [copiesOr, parseOr, ← ih2]
        rcases copiesExpr R f st e with ⟨x | x | _ | _, m⟩
        · rfl
        · simp only
          split
          · rfl
          · exact ih4 _ _ _
        all_goals rfl
    · intro e mn mx st k acc
      rw [copiesRepeat, parseRepeat, ← ih2]
      rcases copiesExpr R f st e with ⟨x | x | _ | _, m⟩
      · simp only
        split
        · rfl
        · exact ih5 _ _ _ _ _ _
      · simp only
        split
        · split <;> rfl
        · rfl
      all_goals rfl

/-- finished, or not at all -/
def CLe {α : Type} (x y : Out Error α × Nat) : Prop := x.1 = .diverge ∨ x = y

/-- One more unit of fuel does not change what a finished run has copied. -/
theorem copies_step : ∀ f,
    (∀ st n, CLe (copiesRuleName R f st n) (copiesRuleName R (f+1) st n)) ∧
    (∀ st e, CLe (copiesExpr R f st e) (copiesExpr R (f+1) st e)) ∧
    (∀ st es acc, CLe (copiesAnd R f st es acc) (copiesAnd R (f+1) st es acc)) ∧
    (∀ st es acc, CLe (copiesOr R f st es acc) (copiesOr R (f+1) st es acc)) ∧
    (∀ e mn mx st k acc, CLe (copiesRepeat R f e mn mx st k acc) (copiesRepeat R (f+1) e mn mx st k acc)) := by
  intro f
  induction f with
  | zero =>
    refine ⟨?_, ?_, ?_, ?_, ?_⟩ <;> intros <;> left
    · rw [copiesRuleName]
    · rw [copiesExpr]
    · rw [copiesAnd]
    · rw [copiesOr]
    · rw [copiesRepeat]
  | succ f ih =>
    obtain ⟨ih1, ih2, ih3, ih4, ih5⟩ := ih
    refine ⟨?_, ?_, ?_, ?_, ?_⟩
    · intro st n
      rw [copiesRuleName, copiesRuleName]
      cases R.get n with
      | none => exact Or.inr rfl
      | some e =>
        simp only
        rcases ih2 (if st.traceRules = true then st.pushRule (c!"r:" ++ n) else st) e with h | h
        · left
          generalize copiesExpr R f (if st.traceRules = true then st.pushRule (c!"r:" ++ n) else st) e = x at h ⊢
          obtain ⟨x, m⟩ := x; simp only at h; subst h; rfl
        · right; rw [h]
    · intro st e
      cases e with
      | simple a => right; rw [copiesExpr, copiesExpr]
      | and es =>
        rw [copiesExpr, copiesExpr]
        rcases ih3 st es [] with h | h
        · exact Or.inl h
        · right; rw [h]
      | or es =>
        rw [copiesExpr, copiesExpr]
        rcases ih4 st es none with h | h
        · exact Or.inl h
        · right; rw [h]
      | not e =>
        rw [copiesExpr, copiesExpr]
        rcases ih2 st e with h | h
        · left
          generalize copiesExpr R f st e = x at h ⊢
          obtain ⟨x, m⟩ := x; simp only at h; subst h; rfl
        · right; rw [h]
      | rep e mn mx =>
        rw [copiesExpr, copiesExpr]
        rcases ih5 e mn mx st 0 [] with h | h
        · exact Or.inl h
        · right; rw [h]
      | ruleName n =>
        rw [copiesExpr, copiesExpr]
        rcases ih1 st n with h | h
        · left
          generalize copiesRuleName R f st n = x at h ⊢
          obtain ⟨x, m⟩ := x; simp only at h; subst h; rfl
        · right; rw [h]
    · intro st es acc
      cases es with
      | nil => right; rw [copiesAnd, copiesAnd]
      | cons e es =>
        rw [copiesAnd, copiesAnd]
        rcases ih2 st e with h | h
        · left
          generalize copiesExpr R f st e = x at h ⊢
          obtain ⟨x, m⟩ := x; simp only at h; subst h; rfl
        · rw [← h]
          rcases copiesExpr R f st e with ⟨x | x | _ | _, m⟩
          · rcases ih3 x.1 es (acc ++ x.2) with h | h
            · exact Or.inl h
            · right; simp only; rw [h]
          all_goals exact Or.inr rfl
    · intro st es acc
      cases es with
      | nil => right; cases acc <;> rw [copiesOr, copiesOr]
      | cons e es =>
        rw [copiesOr, copiesOr]
        rcases ih2 st e with h | h
        · left
          generalize copiesExpr R f st e = x at h ⊢
          obtain ⟨x, m⟩ := x; simp only at h; subst h; rfl
        · rw [← h]
          rcases copiesExpr R f st e with ⟨x | x | _ | _, m⟩
          · exact Or.inr rfl
          · simp only
            split
            · exact Or.inr rfl
            · rcases ih4 st es (deepErr acc x) with h | h
              · exact Or.inl h
              · right; rw [h]
          all_goals exact Or.inr rfl
    · intro e mn mx st k acc
      rw [copiesRepeat, copiesRepeat]
      rcases ih2 st e with h | h
      · left
        generalize copiesExpr R f st e = x at h ⊢
        obtain ⟨x, m⟩ := x; simp only at h; subst h; rfl
      · rw [← h]
        rcases copiesExpr R f st e with ⟨x | x | _ | _, m⟩
        · simp only
          split
          · exact Or.inr rfl
          · rcases ih5 e mn mx x.1 (k + 1) (acc ++ x.2) with h | h
            · exact Or.inl h
            · right; rw [h]
        all_goals exact Or.inr rfl

theorem copies_mono {f g : Nat} (h : f ≤ g) {st n} (hd : parseRuleName R f st n ≠ .diverge) :
    copiesRuleName R g st n = copiesRuleName R f st n := by
  induction h with
  | refl => rfl
  | @step g _ ih =>
    have hd' : (copiesRuleName R g st n).1 ≠ .diverge := by rw [ih, (copies_erase R f).1]; exact hd
    rcases (copies_step R g).1 st n with h | h
    · exact absurd h hd'
    · rw [← h, ih]

/-! ### At most -/

variable {R}

/-- no stretch of the text without end of line is longer than `L` -/
def LinesWithin (L : Nat) (s : Str) : Prop := ∀ pre l post, s = pre ++ l ++ post → '\n' ∉ l → l.length ≤ L

theorem takeBytes_length : ∀ {n : Nat} {s r : Str}, takeBytes n s = some r → r.length ≤ n := by
  intro n s
  induction s generalizing n with
  | nil =>
    intro r h
    cases n with
    | zero => rw [takeBytes] at h; cases h; exact Nat.zero_le _
    | succ n => rw [takeBytes] at h; cases h
  | cons c s ih =>
    intro r h
    cases n with
    | zero => rw [takeBytes] at h; cases h; exact Nat.zero_le _
    | succ n =>
      rw [takeBytes] at h
      split at h
      · rw [Option.map_eq_some_iff] at h
        obtain ⟨r', h1, rfl⟩ := h
        have := ih h1
        have := Char.utf8Size_pos c
        rw [List.length_cons]
        omega
      · cases h

/-- an error holds at most the characters of its line (on a text that is not ASCII `line_before` may be cut elsewhere) -/
theorem errAt_copied {s e L} (hL : LinesWithin L s) (h : ErrAt s e) : e.copied ≤ L := by
  obtain ⟨pre, post, h1, h2, h3, h4⟩ := h.at_
  obtain ⟨p0, h6, _⟩ := lastLine_split pre
  have h5 : e.lineBefore.length ≤ (lastLine pre).length := by
    unfold slice at h4
    split at h4
    · rw [Option.bind_eq_some_iff] at h4
      obtain ⟨u, _, h4⟩ := h4
      have := takeBytes_length h4
      have := lastLine_length_le pre
      have := h2.n
      have := h2.startLine
      omega
    · cases h4
  have := hL p0 (lastLine pre ++ e.lineAfter) (post.dropWhile (fun ch => ch != '\n' && ch != '\r')) (by
    rw [h1, h3, List.append_assoc, List.append_assoc, List.takeWhile_append_dropWhile, ← List.append_assoc, ← h6]) (by
    rw [List.mem_append]
    rintro (h | h)
    · exact lastLine_no_newline pre h
    · rw [h3] at h; have := List.mem_takeWhile_imp h; simp at this)
  rw [List.length_append] at this
  unfold Error.copied
  omega

theorem invP_copied {s st L} (hL : LinesWithin L s) (h : InvP s st) : st.copied ≤ L := by
  unfold Status.copied
  cases hp : st.potentialError with
  | none => exact Nat.zero_le _
  | some e => exact errAt_copied hL (h.pot e hp)

theorem raise_built {α : Type} {s st L d p} (hL : LinesWithin L s) (h : InvP s st) :
    built (raise st d p : Out Error α) ≤ L := by
  unfold raise
  cases hf : fromStatus st d p with
  | none => exact Nat.zero_le _
  | some e => exact errAt_copied hL (inv_err h.toInv hf)

theorem good_all (s : Str) (f : Nat) :
    (∀ st n, InvP s st → Good (InvP s) (ErrAt s) True (parseRuleName R f st n)) ∧
    (∀ st e, InvP s st → Good (InvP s) (ErrAt s) True (parseExpr R f st e)) := by
  obtain ⟨h1, h2, _⟩ := preserve (preserved_invP R s) (fun _ _ _ _ _ => trivial) f
  exact ⟨fun st n h => h1 st n h trivial, fun st e h => h2 st e h fun _ _ => trivial⟩

theorem copies_bound {s : Str} {L : Nat} (hL : LinesWithin L s) : ∀ f,
    (∀ st n, InvP s st → (copiesRuleName R f st n).1 ≠ .diverge →
      (copiesRuleName R f st n).2 ≤ 3 * L * (meterRuleName R f st n).2.calls + L) ∧
    (∀ st e, InvP s st → (copiesExpr R f st e).1 ≠ .diverge →
      (copiesExpr R f st e).2 + L ≤ 3 * L * (meterExpr R f st e).2.calls) ∧
    (∀ st es acc, InvP s st → (copiesAnd R f st es acc).1 ≠ .diverge →
      (copiesAnd R f st es acc).2 ≤ 3 * L * (meterAnd R f st es acc).2.calls) ∧
    (∀ st es acc, InvP s st → (copiesOr R f st es acc).1 ≠ .diverge →
      (copiesOr R f st es acc).2 ≤ 3 * L * (meterOr R f st es acc).2.calls + L) ∧
    (∀ e mn mx st k acc, InvP s st → (copiesRepeat R f e mn mx st k acc).1 ≠ .diverge →
      (copiesRepeat R f e mn mx st k acc).2 ≤ 3 * L * (meterRepeat R f e mn mx st k acc).2.calls) := by
  intro f
  induction f with
  | zero =>
    refine ⟨?_, ?_, ?_, ?_, ?_⟩
    · intro st n _ h; rw [copiesRuleName] at h; exact absurd rfl h
    · intro st e _ h; rw [copiesExpr] at h; exact absurd rfl h
    · intro st es acc _ h; rw [copiesAnd] at h; exact absurd rfl h
    · intro st es acc _ h; rw [copiesOr] at h; exact absurd rfl h
    · intro e mn mx st k acc _ h; rw [copiesRepeat] at h; exact absurd rfl h
  | succ f ih =>
    obtain ⟨ih1, ih2, ih3, ih4, ih5⟩ := ih
    -- what a part returns, what it copied and what it used
    have part : ∀ st e, InvP s st → ∃ x c m, copiesExpr R f st e = (x, c) ∧ meterExpr R f st e = (x, m) ∧
        Good (InvP s) (ErrAt s) True x ∧ (x ≠ .diverge → c + L ≤ 3 * L * m.calls) := by
      intro st e hI
      refine ⟨_, _, _, rfl, Prod.ext (((meter_erase R f).2.1 st e).trans ((copies_erase R f).2.1 st e).symm) rfl, ?_, ih2 st e hI⟩
      rw [(copies_erase R f).2.1]
      exact (good_all s f).2 st e hI
    refine ⟨?_, ?_, ?_, ?_, ?_⟩
    · intro st n hI
      rw [copiesRuleName, meterRuleName]
      have hI' : InvP s (if st.traceRules = true then st.pushRule (c!"r:" ++ n) else st) := by
        split
        · exact ⟨⟨hI.text, hI.at_⟩, hI.pot⟩
        · exact hI
      cases R.get n with
      | none => intro _; simp only; have := raise_built (α := Status × Node) (d := .missingRule n) (p := .critical) hL hI'; omega
      | some e =>
        simp only
        obtain ⟨x, c, m, h1, h2, _, h3⟩ := part _ e hI'
        rw [h1, h2]
        rcases x with x | x | _ | _ <;> intro h
        · have := h3 (by simp); simp only; omega
        · have := h3 (by simp); simp only; omega
        · have := h3 (by simp); simp only; omega
        · exact absurd rfl h
    · intro st e hI
      have hst := invP_copied hL hI
      cases e with
      | simple a =>
        intro _
        rw [copiesExpr, meterExpr]
        simp only [Meter.zero, Meter.enter]
        have h1 : built (parseAtomAsExpr st a) ≤ L := by
          have := (good_all (R := R) s 1).2 st (.simple a) hI
          rw [parseExpr] at this
          cases hx : parseAtomAsExpr st a with
          | err e => rw [hx] at this; exact errAt_copied hL this
          | _ => exact Nat.zero_le _
        omega
      | and es =>
        rw [copiesExpr, meterExpr]
        intro h
        have := ih3 st es [] hI h
        simp only [Meter.enter, Nat.mul_add]
        omega
      | or es =>
        rw [copiesExpr, meterExpr]
        intro h
        have := ih4 st es none hI h
        simp only [Meter.enter, Nat.mul_add]
        omega
      | not e =>
        rw [copiesExpr, meterExpr]
        obtain ⟨x, c, m, h1, h2, _, h3⟩ := part st e hI
        have h4 := raise_built (α := Status × List Node) (d := .not) (p := .normal) hL hI
        rw [h1, h2]
        rcases x with x | x | _ | _ <;> intro h
        · have := h3 (by simp); simp only [Meter.enter, Nat.mul_add]; omega
        · have := h3 (by simp); simp only [Meter.enter, Nat.mul_add]; omega
        · have := h3 (by simp); simp only [Meter.enter, Nat.mul_add]; omega
        · exact absurd rfl h
      | rep e mn mx =>
        rw [copiesExpr, meterExpr]
        intro h
        have := ih5 e mn mx st 0 [] hI h
        simp only [Meter.enter, Nat.mul_add]
        omega
      | ruleName n =>
        rw [copiesExpr, meterExpr]
        have h1 := ih1 st n hI
        have h2 : (meterRuleName R f st n).1 = (copiesRuleName R f st n).1 :=
          ((meter_erase R f).1 st n).trans ((copies_erase R f).1 st n).symm
        generalize copiesRuleName R f st n = y at h1 h2 ⊢
        generalize meterRuleName R f st n = z at h1 h2 ⊢
        obtain ⟨y, c⟩ := y
        obtain ⟨z, m⟩ := z
        simp only at h2
        subst h2
        rcases z with x | x | _ | _ <;> intro h
        · have := h1 (by simp); simp only [Meter.enter, Nat.mul_add] at this ⊢; omega
        · have := h1 (by simp); simp only [Meter.enter, Nat.mul_add] at this ⊢; omega
        · have := h1 (by simp); simp only [Meter.enter, Nat.mul_add] at this ⊢; omega
        · exact absurd rfl h
    · intro st es acc hI
      cases es with
      | nil => intro _; rw [copiesAnd]; exact Nat.zero_le _
      | cons e es =>
        rw [copiesAnd, meterAnd]
        obtain ⟨x, c, m, h1, h2, hG, h3⟩ := part st e hI
        rw [h1, h2]
        rcases x with x | x | _ | _ <;> intro h
        · have h4 := h3 (by simp)
          have h5 := ih3 x.1 es (acc ++ x.2) hG h
          simp only [Meter.andThen, Nat.mul_add]
          omega
        · have := h3 (by simp); simp only; omega
        · have := h3 (by simp); simp only; omega
        · exact absurd rfl h
    · intro st es acc hI
      have hst := invP_copied hL hI
      cases es with
      | nil =>
        intro _
        cases acc with
        | some e => rw [copiesOr]; exact Nat.zero_le _
        | none => rw [copiesOr]; simp only; have := raise_built (α := Status × List Node) (d := .orLogic) (p := .normal) hL hI; omega
      | cons e es =>
        rw [copiesOr, meterOr]
        obtain ⟨x, c, m, h1, h2, hG, h3⟩ := part st e hI
        rw [h1, h2]
        rcases x with x | x | _ | _
        · intro _; have := h3 (by simp); simp only; omega
        · have h4 := h3 (by simp)
          simp only
          split
          · intro _; simp only; omega
          · intro h
            have h5 := ih4 st es (deepErr acc x) hI h
            simp only [Meter.andThen, Nat.mul_add]
            omega
        · intro _; have := h3 (by simp); simp only; omega
        · intro h; exact absurd rfl h
    · intro e mn mx st k acc hI
      have hst := invP_copied hL hI
      rw [copiesRepeat, meterRepeat]
      obtain ⟨x, c, m, h1, h2, hG, h3⟩ := part st e hI
      rw [h1, h2]
      rcases x with x | x | _ | _
      · have h4 := h3 (by simp)
        simp only
        split
        · intro _; simp only; omega
        · intro h
          have h5 := ih5 e mn mx x.1 (k + 1) (acc ++ x.2) hG h
          simp only [Meter.andThen, Nat.mul_add]
          omega
      · have h4 := h3 (by simp)
        simp only
        split
        · split <;> intro _ <;> simp only <;> omega
        · intro _; simp only; omega
      · intro _; have := h3 (by simp); simp only; omega
      · intro h; exact absurd rfl h

/-! ### The numbers that are added -/

/-- the errors of the text hold numbers of characters of a set that is closed under addition: so is the total -/
theorem copies_closed {s : Str} (S : Nat → Prop) (h0 : S 0) (ha : ∀ {a b}, S a → S b → S (a + b))
    (hE : ∀ e, ErrAt s e → S e.copied) : ∀ f,
    (∀ st n, InvP s st → S (copiesRuleName R f st n).2) ∧
    (∀ st e, InvP s st → S (copiesExpr R f st e).2) ∧
    (∀ st es acc, InvP s st → S (copiesAnd R f st es acc).2) ∧
    (∀ st es acc, InvP s st → S (copiesOr R f st es acc).2) ∧
    (∀ e mn mx st k acc, InvP s st → S (copiesRepeat R f e mn mx st k acc).2) := by
  have hst : ∀ {st}, InvP s st → S st.copied := by
    intro st h
    unfold Status.copied
    cases hp : st.potentialError with
    | none => exact h0
    | some e => exact hE e (h.pot e hp)
  have hb : ∀ {α : Type} {st d p}, InvP s st → S (built (raise st d p : Out Error α)) := by
    intro α st d p h
    unfold raise
    cases hf : fromStatus st d p with
    | none => exact h0
    | some e => exact hE e (inv_err h.toInv hf)
  intro f
  induction f with
  | zero =>
    refine ⟨?_, ?_, ?_, ?_, ?_⟩ <;> intros
    · rw [copiesRuleName]; exact h0
    · rw [copiesExpr]; exact h0
    · rw [copiesAnd]; exact h0
    · rw [copiesOr]; exact h0
    · rw [copiesRepeat]; exact h0
  | succ f ih =>
    obtain ⟨ih1, ih2, ih3, ih4, ih5⟩ := ih
    have part : ∀ st e, InvP s st → ∃ x c, copiesExpr R f st e = (x, c) ∧ Good (InvP s) (ErrAt s) True x ∧ S c := by
      intro st e hI
      refine ⟨_, _, rfl, ?_, ih2 st e hI⟩
      rw [(copies_erase R f).2.1]
      exact (good_all s f).2 st e hI
    refine ⟨?_, ?_, ?_, ?_, ?_⟩
    · intro st n hI
      rw [copiesRuleName]
      have hI' : InvP s (if st.traceRules = true then st.pushRule (c!"r:" ++ n) else st) := by
        split
        · exact ⟨⟨hI.text, hI.at_⟩, hI.pot⟩
        · exact hI
      cases R.get n with
      | none => exact hb hI'
      | some e =>
        simp only
        obtain ⟨x, c, h1, _, h3⟩ := part _ e hI'
        rw [h1]
        rcases x with x | x | _ | _ <;> exact h3
    · intro st e hI
      cases e with
      | simple a =>
        rw [copiesExpr]
        have := (good_all (R := R) s 1).2 st (.simple a) hI
        rw [parseExpr] at this
        simp only
        cases hx : parseAtomAsExpr st a with
        | err e => rw [hx] at this; exact hE e this
        | _ => exact h0
      | and es => rw [copiesExpr]; exact ih3 st es [] hI
      | or es => rw [copiesExpr]; exact ha (hst hI) (ih4 st es none hI)
      | not e =>
        rw [copiesExpr]
        obtain ⟨x, c, h1, _, h3⟩ := part st e hI
        rw [h1]
        rcases x with x | x | _ | _
        · exact ha (ha (hst hI) h3) (hb hI)
        all_goals exact ha (hst hI) h3
      | rep e mn mx => rw [copiesExpr]; exact ih5 e mn mx st 0 [] hI
      | ruleName n =>
        rw [copiesExpr]
        have h3 := ih1 st n hI
        generalize copiesRuleName R f st n = y at h3 ⊢
        obtain ⟨y, c⟩ := y
        rcases y with x | x | _ | _ <;> exact h3
    · intro st es acc hI
      cases es with
      | nil => rw [copiesAnd]; exact h0
      | cons e es =>
        rw [copiesAnd]
        obtain ⟨x, c, h1, hG, h3⟩ := part st e hI
        rw [h1]
        rcases x with x | x | _ | _
        · exact ha h3 (ih3 x.1 es (acc ++ x.2) hG)
        all_goals exact h3
    · intro st es acc hI
      cases es with
      | nil =>
        cases acc with
        | some e => rw [copiesOr]; exact h0
        | none => rw [copiesOr]; exact hb hI
      | cons e es =>
        rw [copiesOr]
        obtain ⟨x, c, h1, hG, h3⟩ := part st e hI
        rw [h1]
        rcases x with x | x | _ | _
        · exact ha (hst hI) h3
        · simp only
          split
          · exact ha (hst hI) h3
          · exact ha (ha (hst hI) h3) (ih4 st es (deepErr acc x) hI)
        · exact ha (hst hI) h3
        · exact ha (hst hI) h3
    · intro e mn mx st k acc hI
      rw [copiesRepeat]
      obtain ⟨x, c, h1, hG, h3⟩ := part st e hI
      rw [h1]
      rcases x with x | x | _ | _
      · simp only
        split
        · exact ha (hst hI) h3
        · exact ha (ha (hst hI) h3) (ih5 e mn mx x.1 (k + 1) (acc ++ x.2) hG)
      · simp only
        split
        · split <;> exact ha (hst hI) h3
        · exact ha (hst hI) h3
      · exact ha (hst hI) h3
      · exact ha (hst hI) h3

end DP
