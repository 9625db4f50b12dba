/-
The parser on a limited stack (Model/Stack.lean): as long as it does not overflow it does what the parser does, and how deep the calls
nest (Model/Meter.lean) tells whether it overflows, up to the sizes of the frames.
-/
import Verif.Model.Stack
import Verif.Model.Meter

namespace DP

/-- the most a call of `parse_expr` takes before the next one -/
def Frames.most (F : Frames) : Nat := F.expr + max (max (max F.atom F.and) (max F.or F.not)) (max F.rep (F.ref + F.rule))

namespace Stack

/-- no overflow and the same outcome, or an overflow that the depth explains -/
def Fits {α : Type} (F : Frames) (w d : Nat) (sx : Option (Out Error α)) (y : Out Error α × Meter) : Prop :=
  (sx = some y.1 ∧ y.2.depth * F.expr ≤ d) ∨ (sx = none ∧ d < w + y.2.depth * F.most)

section
variable {F : Frames} {R : SetOfRules}

theorem fits_enter {α : Type} {d k : Nat} {sx : Option (Out Error α)} {x : Out Error α} {m : Meter}
    (hk : F.expr + k ≤ F.most) (hd : ¬ d < F.expr) (h : Fits F 0 (d - F.expr - k) sx (x, m)) (_ : ¬ d - F.expr < k) :
    Fits F 0 d sx (x, m.enter) := by
  rcases h with ⟨h1, h2⟩ | ⟨h1, h2⟩
  · refine .inl ⟨h1, ?_⟩
    simp only [Meter.enter, Nat.add_mul, Nat.one_mul] at h2 ⊢
    omega
  · refine .inr ⟨h1, ?_⟩
    simp only [Meter.enter, Nat.add_mul, Nat.one_mul] at h2 ⊢
    omega

theorem fits_none {α : Type} {d : Nat} {x : Out Error α} {m : Meter} (h : d < F.most) : Fits F 0 d none (x, m.enter) := by
  refine .inr ⟨rfl, ?_⟩
  simp only [Meter.enter, Nat.add_mul, Nat.one_mul]
  omega

theorem depth_left (m m' : Meter) (k : Nat) : m.depth * k ≤ (m.andThen m').depth * k :=
  Nat.mul_le_mul_right _ (Nat.le_max_left _ _)

theorem depth_right (m m' : Meter) (k : Nat) : m'.depth * k ≤ (m.andThen m').depth * k :=
  Nat.mul_le_mul_right _ (Nat.le_max_right _ _)

theorem fits_then {α : Type} {d : Nat} {sx : Option (Out Error α)} {x : Out Error α} {m m' : Meter}
    (h1 : m.depth * F.expr ≤ d) (h2 : Fits F 0 d sx (x, m')) : Fits F 0 d sx (x, m.andThen m') := by
  rcases h2 with ⟨h3, h4⟩ | ⟨h3, h4⟩
  · refine .inl ⟨h3, ?_⟩
    simp only at h4
    show max _ _ * _ ≤ _
    rcases Nat.le_total m.depth m'.depth with h | h
    · rw [Nat.max_eq_right h]; exact h4
    · rw [Nat.max_eq_left h]; exact h1
  · refine .inr ⟨h3, ?_⟩
    have := depth_right m m' F.most
    simp only at h4 ⊢
    omega

theorem stackExpr_succ (f d : Nat) (st : Status) (e : Expr) : stackExpr F R (f + 1) d st e =
    if d < F.expr then none
    else match e with
      | .simple a => if d - F.expr < F.atom then none else some (parseAtomAsExpr st a)
      | .and es => if d - F.expr < F.and then none else stackAnd F R f (d - F.expr - F.and) st es []
      | .or es => if d - F.expr < F.or then none else stackOr F R f (d - F.expr - F.or) st es none
      | .not e =>
        if d - F.expr < F.not then none
        else match stackExpr F R f (d - F.expr - F.not) st e with
          | none => none
          | some (.ok _) => some (raise st .not .normal)
          | some (.err _) => some (.ok (st, []))
          | some .panic => some .panic
          | some .diverge => some .diverge
      | .rep e min max => if d - F.expr < F.rep then none else stackRepeat F R f (d - F.expr - F.rep) e min max st 0 []
      | .ruleName name =>
        if d - F.expr < F.ref then none
        else match stackRuleName F R f (d - F.expr - F.ref) st name with
          | none => none
          | some (.ok (st, node)) => some (.ok (st, [node]))
          | some (.err e) => some (.err e)
          | some .panic => some .panic
          | some .diverge => some .diverge := by
  cases e <;> rw [stackExpr] <;> rfl

/-- **the relation between the stack and the depth** -/
theorem fits : ∀ f,
    (∀ d st n, Fits F F.rule d (stackRuleName F R f d st n) (meterRuleName R f st n)) ∧
    (∀ d st e, Fits F 0 d (stackExpr F R f d st e) (meterExpr R f st e)) ∧
    (∀ d st es acc, Fits F 0 d (stackAnd F R f d st es acc) (meterAnd R f st es acc)) ∧
    (∀ d st es acc, Fits F 0 d (stackOr F R f d st es acc) (meterOr R f st es acc)) ∧
    (∀ d e mn mx st k acc, Fits F 0 d (stackRepeat F R f d e mn mx st k acc) (meterRepeat R f e mn mx st k acc)) := by
  intro f
  induction f with
  | zero =>
    refine ⟨?_, ?_, ?_, ?_, ?_⟩ <;> intros <;> left
    · rw [stackRuleName, meterRuleName]; simp [Meter.zero]
    · rw [stackExpr, meterExpr]; simp [Meter.zero]
    · rw [stackAnd, meterAnd]; simp [Meter.zero]
    · rw [stackOr, meterOr]; simp [Meter.zero]
    · rw [stackRepeat, meterRepeat]; simp [Meter.zero]
  | succ f ih =>
    obtain ⟨ih1, ih2, ih3, ih4, ih5⟩ := ih
    refine ⟨?_, ?_, ?_, ?_, ?_⟩
    · intro d st n
      rw [stackRuleName, meterRuleName]
      split
      · rename_i h
        exact .inr ⟨rfl, by omega⟩
      · rename_i hd
        cases R.get n with
        | none => exact .inl ⟨rfl, by simp [Meter.zero]⟩
        | some e =>
          simp only
          have h := ih2 (d - F.rule) (if st.traceRules = true then st.pushRule (c!"r:" ++ n) else st) e
          generalize stackExpr F R f (d - F.rule) (if st.traceRules = true then st.pushRule (c!"r:" ++ n) else st) e = sx at h ⊢
          generalize meterExpr R f (if st.traceRules = true then st.pushRule (c!"r:" ++ n) else st) e = y at h ⊢
          obtain ⟨x, m⟩ := y
          rcases h with ⟨rfl, h2⟩ | ⟨rfl, h2⟩
          · simp only at h2
            rcases x with x | x | _ | _ <;> exact .inl ⟨rfl, by show m.depth * F.expr ≤ d; omega⟩
          · simp only at h2
            rcases x with x | x | _ | _ <;> exact .inr ⟨rfl, by show d < F.rule + m.depth * F.most; omega⟩
    · intro d st e
      have hm : F.expr + F.atom ≤ F.most ∧ F.expr + F.and ≤ F.most ∧ F.expr + F.or ≤ F.most ∧ F.expr + F.not ≤ F.most ∧
          F.expr + F.rep ≤ F.most ∧ F.expr + (F.ref + F.rule) ≤ F.most := by unfold Frames.most; omega
      obtain ⟨m1, m2, m3, m4, m5, m6⟩ := hm
      rw [stackExpr_succ]
      by_cases hd : d < F.expr
      · rw [if_pos hd]
        cases e with
        | simple a => rw [meterExpr]; exact fits_none (by omega)
        | and es => rw [meterExpr]; exact fits_none (by omega)
        | or es => rw [meterExpr]; exact fits_none (by omega)
        | not e =>
          rw [meterExpr]
          rcases meterExpr R f st e with ⟨x | x | _ | _, m⟩ <;> exact fits_none (by omega)
        | rep e mn mx => rw [meterExpr]; exact fits_none (by omega)
        | ruleName n =>
          rw [meterExpr]
          rcases meterRuleName R f st n with ⟨x | x | _ | _, m⟩ <;> exact fits_none (by omega)
      · rw [if_neg hd]
        cases e with
        | simple a =>
          rw [meterExpr]
          simp only
          split
          · exact fits_none (by omega)
          · refine fits_enter m1 hd (.inl ⟨rfl, ?_⟩) (by assumption)
            simp [Meter.zero]
        | and es =>
          rw [meterExpr]
          simp only
          split
          · exact fits_none (by omega)
          · exact fits_enter m2 hd (ih3 _ _ _ _) (by assumption)
        | or es =>
          rw [meterExpr]
          simp only
          split
          · exact fits_none (by omega)
          · exact fits_enter m3 hd (ih4 _ _ _ _) (by assumption)
        | not e =>
          rw [meterExpr]
          simp only
          split
          · rcases meterExpr R f st e with ⟨x | x | _ | _, m⟩ <;> exact fits_none (by omega)
          · rename_i hd'
            have h := ih2 (d - F.expr - F.not) st e
            generalize stackExpr F R f (d - F.expr - F.not) st e = sx at h ⊢
            generalize meterExpr R f st e = y at h ⊢
            obtain ⟨x, m⟩ := y
            rcases h with ⟨rfl, h2⟩ | ⟨rfl, h2⟩
            · rcases x with x | x | _ | _ <;> exact fits_enter m4 hd (.inl ⟨rfl, h2⟩) hd'
            · rcases x with x | x | _ | _ <;> exact fits_enter m4 hd (.inr ⟨rfl, h2⟩) hd'
        | rep e mn mx =>
          rw [meterExpr]
          simp only
          split
          · exact fits_none (by omega)
          · exact fits_enter m5 hd (ih5 _ _ _ _ _ _ _) (by assumption)
        | ruleName n =>
          rw [meterExpr]
          simp only
          split
          · rcases meterRuleName R f st n with ⟨x | x | _ | _, m⟩ <;> exact fits_none (by omega)
          · rename_i hd'
            have h := ih1 (d - F.expr - F.ref) st n
            generalize stackRuleName F R f (d - F.expr - F.ref) st n = sx at h ⊢
            generalize meterRuleName R f st n = y at h ⊢
            obtain ⟨x, m⟩ := y
            rcases h with ⟨rfl, h2⟩ | ⟨rfl, h2⟩
            · rcases x with x | x | _ | _ <;> exact fits_enter (k := F.ref) (by omega) hd (.inl ⟨rfl, h2⟩) hd'
            · have : d < 0 + (m.enter).depth * F.most := by
                simp only [Meter.enter, Nat.add_mul, Nat.one_mul] at h2 ⊢
                omega
              rcases x with x | x | _ | _ <;> exact .inr ⟨rfl, this⟩
    · intro d st es acc
      cases es with
      | nil => rw [stackAnd, meterAnd]; exact .inl ⟨rfl, by simp [Meter.zero]⟩
      | cons e es =>
        rw [stackAnd, meterAnd]
        have h := ih2 d st e
        generalize stackExpr F R f d st e = sx at h ⊢
        generalize meterExpr R f st e = y at h ⊢
        obtain ⟨x, m⟩ := y
        rcases h with ⟨rfl, h2⟩ | ⟨rfl, h2⟩
        · rcases x with x | x | _ | _
          · exact fits_then h2 (ih3 _ _ _ _)
          all_goals exact .inl ⟨rfl, h2⟩
        · rcases x with x | x | _ | _
          · exact .inr ⟨rfl, Nat.lt_of_lt_of_le h2 (Nat.add_le_add_left (depth_left _ _ _) _)⟩
          all_goals exact .inr ⟨rfl, h2⟩
    · intro d st es acc
      cases es with
      | nil => cases acc <;> rw [stackOr, meterOr] <;> exact .inl ⟨rfl, by simp [Meter.zero]⟩
      | cons e es =>
        rw [stackOr, meterOr]
        have h := ih2 d st e
        generalize stackExpr F R f d st e = sx at h ⊢
        generalize meterExpr R f st e = y at h ⊢
        obtain ⟨x, m⟩ := y
        rcases h with ⟨rfl, h2⟩ | ⟨rfl, h2⟩
        · rcases x with x | x | _ | _
          · exact .inl ⟨rfl, h2⟩
          · simp only
            split
            · exact .inl ⟨rfl, h2⟩
            · exact fits_then h2 (ih4 _ _ _ _)
          all_goals exact .inl ⟨rfl, h2⟩
        · rcases x with x | x | _ | _
          · exact .inr ⟨rfl, h2⟩
          · simp only
            split
            · exact .inr ⟨rfl, h2⟩
            · exact .inr ⟨rfl, Nat.lt_of_lt_of_le h2 (Nat.add_le_add_left (depth_left _ _ _) _)⟩
          all_goals exact .inr ⟨rfl, h2⟩
    · intro d e mn mx st k acc
      rw [stackRepeat, meterRepeat]
      have h := ih2 d st e
      generalize stackExpr F R f d st e = sx at h ⊢
      generalize meterExpr R f st e = y at h ⊢
      obtain ⟨x, m⟩ := y
      rcases h with ⟨rfl, h2⟩ | ⟨rfl, h2⟩
      · rcases x with x | x | _ | _
        · simp only
          split
          · exact .inl ⟨rfl, h2⟩
          · exact fits_then h2 (ih5 _ _ _ _ _ _ _)
        · simp only
          split
          · split <;> exact .inl ⟨rfl, h2⟩
          · exact .inl ⟨rfl, h2⟩
        all_goals exact .inl ⟨rfl, h2⟩
      · rcases x with x | x | _ | _
        · simp only
          split
          · exact .inr ⟨rfl, h2⟩
          · exact .inr ⟨rfl, Nat.lt_of_lt_of_le h2 (Nat.add_le_add_left (depth_left _ _ _) _)⟩
        · simp only
          split
          · split <;> exact .inr ⟨rfl, h2⟩
          · exact .inr ⟨rfl, h2⟩
        all_goals exact .inr ⟨rfl, h2⟩

/-! ### More stack, more fuel -/

/-- an overflow, no answer yet, or the same -/
def Le {α : Type} (b : Bool) (x y : Option (Out Error α)) : Prop := (b = true ∧ x = none) ∨ (b = false ∧ x = some .diverge) ∨ x = y

/-- with `b` the second has more stack, without it more fuel -/
theorem grows (b : Bool) : ∀ f,
    (∀ d d' st n, d ≤ d' → (b = false → d = d') →
      Le b (stackRuleName F R f d st n) (stackRuleName F R (if b then f else f + 1) d' st n)) ∧
    (∀ d d' st e, d ≤ d' → (b = false → d = d') → Le b (stackExpr F R f d st e) (stackExpr F R (if b then f else f + 1) d' st e)) ∧
    (∀ d d' st es acc, d ≤ d' → (b = false → d = d') →
      Le b (stackAnd F R f d st es acc) (stackAnd F R (if b then f else f + 1) d' st es acc)) ∧
    (∀ d d' st es acc, d ≤ d' → (b = false → d = d') →
      Le b (stackOr F R f d st es acc) (stackOr F R (if b then f else f + 1) d' st es acc)) ∧
    (∀ d d' e mn mx st k acc, d ≤ d' → (b = false → d = d') →
      Le b (stackRepeat F R f d e mn mx st k acc) (stackRepeat F R (if b then f else f + 1) d' e mn mx st k acc)) := by
  intro f
  induction f with
  | zero =>
    cases b
    · refine ⟨?_, ?_, ?_, ?_, ?_⟩ <;> intros <;> right <;> left
      · rw [stackRuleName]; exact ⟨rfl, rfl⟩
      · rw [stackExpr]; exact ⟨rfl, rfl⟩
      · rw [stackAnd]; exact ⟨rfl, rfl⟩
      · rw [stackOr]; exact ⟨rfl, rfl⟩
      · rw [stackRepeat]; exact ⟨rfl, rfl⟩
    · refine ⟨?_, ?_, ?_, ?_, ?_⟩ <;> intros <;> right <;> right
      · rw [if_pos rfl, stackRuleName, stackRuleName]
      · rw [if_pos rfl, stackExpr, stackExpr]
      · rw [if_pos rfl, stackAnd, stackAnd]
      · rw [if_pos rfl, stackOr, stackOr]
      · rw [if_pos rfl, stackRepeat, stackRepeat]
  | succ f ih =>
    have hf : (if b = true then f + 1 else f + 1 + 1) = (if b = true then f else f + 1) + 1 := by cases b <;> rfl
    rw [hf]
    generalize (if b = true then f else f + 1) = g at ih ⊢
    obtain ⟨ih1, ih2, ih3, ih4, ih5⟩ := ih
    have key : ∀ {α : Type} {k d d' : Nat} {x y : Option (Out Error α)}, d ≤ d' → (b = false → d = d') →
        (¬ d < k → ¬ d' < k → Le b x y) → Le b (if d < k then none else x) (if d' < k then none else y) := by
      intro α k d d' x y h h' hx
      by_cases h1 : d < k
      · rw [if_pos h1]
        cases b
        · obtain rfl := h' rfl
          rw [if_pos h1]
          exact .inr (.inr rfl)
        · exact .inl ⟨rfl, rfl⟩
      · rw [if_neg h1, if_neg (by omega)]
        exact hx h1 (by omega)
    refine ⟨?_, ?_, ?_, ?_, ?_⟩
    · intro d d' st n h h'
      rw [stackRuleName, stackRuleName]
      refine key h h' fun h1 h2 => ?_
      cases R.get n with
      | none => exact .inr (.inr rfl)
      | some e =>
        simp only
        have h3 := ih2 (d - F.rule) (d' - F.rule) (if st.traceRules = true then st.pushRule (c!"r:" ++ n) else st) e (by omega)
          (fun hb => by rw [h' hb])
        rcases h3 with ⟨hb, h3⟩ | ⟨hb, h3⟩ | h3
        · rw [h3]; exact .inl ⟨hb, rfl⟩
        · rw [h3]; exact .inr (.inl ⟨hb, rfl⟩)
        · rw [h3]; exact .inr (.inr rfl)
    · intro d d' st e h h'
      rw [stackExpr_succ, stackExpr_succ]
      refine key h h' fun h1 h2 => ?_
      cases e with
      | simple a => exact key (by omega) (fun hb => by rw [h' hb]) fun _ _ => .inr (.inr rfl)
      | and es => exact key (by omega) (fun hb => by rw [h' hb]) fun _ _ => ih3 _ _ _ _ _ (by omega) (fun hb => by rw [h' hb])
      | or es => exact key (by omega) (fun hb => by rw [h' hb]) fun _ _ => ih4 _ _ _ _ _ (by omega) (fun hb => by rw [h' hb])
      | not e =>
        refine key (by omega) (fun hb => by rw [h' hb]) fun _ _ => ?_
        have h3 := ih2 (d - F.expr - F.not) (d' - F.expr - F.not) st e (by omega) (fun hb => by rw [h' hb])
        rcases h3 with ⟨hb, h3⟩ | ⟨hb, h3⟩ | h3
        · rw [h3]; exact .inl ⟨hb, rfl⟩
        · rw [h3]; exact .inr (.inl ⟨hb, rfl⟩)
        · rw [h3]; exact .inr (.inr rfl)
      | rep e mn mx =>
        exact key (by omega) (fun hb => by rw [h' hb]) fun _ _ => ih5 _ _ _ _ _ _ _ _ (by omega) (fun hb => by rw [h' hb])
      | ruleName n =>
        refine key (by omega) (fun hb => by rw [h' hb]) fun _ _ => ?_
        have h3 := ih1 (d - F.expr - F.ref) (d' - F.expr - F.ref) st n (by omega) (fun hb => by rw [h' hb])
        rcases h3 with ⟨hb, h3⟩ | ⟨hb, h3⟩ | h3
        · rw [h3]; exact .inl ⟨hb, rfl⟩
        · rw [h3]; exact .inr (.inl ⟨hb, rfl⟩)
        · rw [h3]; exact .inr (.inr rfl)
    · intro d d' st es acc h h'
      cases es with
      | nil => rw [stackAnd, stackAnd]; exact .inr (.inr rfl)
      | cons e es =>
        rw [stackAnd, stackAnd]
        rcases ih2 d d' st e h h' with ⟨hb, h3⟩ | ⟨hb, h3⟩ | h3
        · rw [h3]; exact .inl ⟨hb, rfl⟩
        · rw [h3]; exact .inr (.inl ⟨hb, rfl⟩)
        · rw [h3]
          rcases stackExpr F R g d' st e with _ | x | x | _ | _
          · exact .inr (.inr rfl)
          · exact ih3 _ _ _ _ _ h h'
          all_goals exact .inr (.inr rfl)
    · intro d d' st es acc h h'
      cases es with
      | nil => cases acc <;> rw [stackOr, stackOr] <;> exact .inr (.inr rfl)
      | cons e es =>
        rw [stackOr, stackOr]
        rcases ih2 d d' st e h h' with ⟨hb, h3⟩ | ⟨hb, h3⟩ | h3
        · rw [h3]; exact .inl ⟨hb, rfl⟩
        · rw [h3]; exact .inr (.inl ⟨hb, rfl⟩)
        · rw [h3]
          rcases stackExpr F R g d' st e with _ | x | x | _ | _
          · exact .inr (.inr rfl)
          · exact .inr (.inr rfl)
          · simp only
            split
            · exact .inr (.inr rfl)
            · exact ih4 _ _ _ _ _ h h'
          all_goals exact .inr (.inr rfl)
    · intro d d' e mn mx st k acc h h'
      rw [stackRepeat, stackRepeat]
      rcases ih2 d d' st e h h' with ⟨hb, h3⟩ | ⟨hb, h3⟩ | h3
      · rw [h3]; exact .inl ⟨hb, rfl⟩
      · rw [h3]; exact .inr (.inl ⟨hb, rfl⟩)
      · rw [h3]
        rcases stackExpr F R g d' st e with _ | x | x | _ | _
        · exact .inr (.inr rfl)
        · simp only
          split
          · exact .inr (.inr rfl)
          · exact ih5 _ _ _ _ _ _ _ _ h h'
        all_goals exact .inr (.inr rfl)

end

end Stack
end DP
