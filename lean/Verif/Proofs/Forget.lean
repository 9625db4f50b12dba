/-
What a repetition remembers does not influence what is matched later, nor the errors.
-/
import Verif.Proofs.Api

namespace DP

/-- the status with another error remembered -/
def Status.recall (st : Status) (p : Option Error) : Status := { st with potentialError := p }

/-- the same result, except for the error remembered -/
inductive Twin {α : Type} : Out Error (Status × α) → Out Error (Status × α) → Prop
  | ok (st v p) : Twin (.ok (st, v)) (.ok (st.recall p, v))
  | err (e) : Twin (.err e) (.err e)
  | panic : Twin .panic .panic
  | diverge : Twin .diverge .diverge

theorem twin_refl {α : Type} (x : Out Error (Status × α)) : Twin x x := by
  rcases x with ⟨st, v⟩ | e | _ | _
  · exact .ok st v st.potentialError
  · exact .err e
  · exact .panic
  · exact .diverge

theorem recall_raise {α : Type} (st : Status) (p d q) : (raise (st.recall p) d q : Out Error α) = raise st d q := rfl

theorem twin_raise {α : Type} (st : Status) (p d q) : Twin (raise st d q : Out Error (Status × α)) (raise (st.recall p) d q) := by
  rw [recall_raise]; exact twin_refl _

theorem recall_getChar (st : Status) (p) : getChar (st.recall p) = match getChar st with
    | .ok x => .ok (x.1.recall p, x.2)
    | .error st => .error (st.recall p) := by
  unfold getChar
  show (match st.itParsing with | [] => _ | ch :: rest => _) = _
  cases st.itParsing <;> rfl

theorem recall_literal (lit : Str) (p) : ∀ (l : Str) (st : Status), parseLiteralLoop lit (st.recall p) l =
    match parseLiteralLoop lit st l with
    | .ok st => .ok (st.recall p)
    | .err e => .err e
    | .panic => .panic
    | .diverge => .diverge := by
  intro l
  induction l with
  | nil => intro st; rfl
  | cons ch l ih =>
    intro st
    rw [parseLiteralLoop, parseLiteralLoop]
    unfold parseChar
    rw [recall_getChar]
    rcases getChar st with st' | ⟨st', ch'⟩
    · simp only [recall_raise]
      unfold raise
      cases fromStatus st' (.literal lit) .normal <;> rfl
    · simp only
      by_cases h : ch = ch'
      · rw [if_pos h, if_pos h]; exact ih st'
      · rw [if_neg h, if_neg h]
        simp only [recall_raise]
        unfold raise
        cases fromStatus st' (.literal lit) .normal <;> rfl

theorem twin_atom (st : Status) (p a) : Twin (parseAtom st a) (parseAtom (st.recall p) a) := by
  cases a with
  | literal l =>
    rw [parseAtom, parseAtom, parseLiteral, parseLiteral, recall_literal]
    cases parseLiteralLoop l st l with
    | ok st' => exact .ok _ _ _
    | err e => exact .err e
    | panic => exact .panic
    | diverge => exact .diverge
  | error m => exact twin_raise st p (.custom m) .critical
  | mtch cs rs =>
    rw [parseAtom, parseAtom, parseMatch, parseMatch, recall_getChar]
    rcases getChar st with st' | ⟨st', ch'⟩
    · exact twin_raise st' p (.mtch cs rs) .normal
    · simp only
      split
      · exact .ok _ _ _
      · exact twin_raise st' p (.mtch cs rs) .normal
  | dot =>
    rw [parseAtom, parseAtom, parseDot, parseDot, recall_getChar]
    rcases getChar st with st' | ⟨st', ch'⟩
    · exact twin_raise st' p .dot .normal
    · exact .ok _ _ _
  | eof =>
    rw [parseAtom, parseAtom, parseEof, parseEof, recall_getChar]
    rcases getChar st with st' | ⟨st', ch'⟩
    · exact .ok _ _ _
    · exact twin_raise st' p .eof .normal

theorem twin_atomAsExpr (st : Status) (p a) : Twin (parseAtomAsExpr st a) (parseAtomAsExpr (st.recall p) a) := by
  unfold parseAtomAsExpr
  have h := twin_atom st p a
  generalize parseAtom st a = x at h
  generalize parseAtom (st.recall p) a = y at h
  cases h
  · exact .ok _ _ _
  · exact .err _
  · exact .panic
  · exact .diverge

theorem twin (R : SetOfRules) : ∀ f,
    (∀ (st : Status) p n, Twin (parseRuleName R f st n) (parseRuleName R f (st.recall p) n)) ∧
    (∀ (st : Status) p e, Twin (parseExpr R f st e) (parseExpr R f (st.recall p) e)) ∧
    (∀ (st : Status) p es acc, Twin (parseAnd R f st es acc) (parseAnd R f (st.recall p) es acc)) ∧
    (∀ (st : Status) p es acc, Twin (parseOr R f st es acc) (parseOr R f (st.recall p) es acc)) ∧
    (∀ e mn mx (st : Status) p k acc, Twin (parseRepeat R f e mn mx st k acc) (parseRepeat R f e mn mx (st.recall p) k acc)) := by
  intro f
  induction f with
  | zero => refine ⟨?_, ?_, ?_, ?_, ?_⟩ <;> intros <;> exact .diverge
  | succ f ih =>
    obtain ⟨ih1, ih2, ih3, ih4, ih5⟩ := ih
    refine ⟨?_, ?_, ?_, ?_, ?_⟩
    · intro st p n
      rw [parseRuleName, parseRuleName]
      have hs : (if (st.recall p).traceRules = true then (st.recall p).pushRule (c!"r:" ++ n) else st.recall p) =
          (if st.traceRules = true then st.pushRule (c!"r:" ++ n) else st).recall p := by
        show (if st.traceRules = true then _ else _) = _
        split <;> rfl
      simp only [hs]
      generalize (if st.traceRules = true then st.pushRule (c!"r:" ++ n) else st) = st1
      cases R.get n with
      | none => exact twin_raise st1 p (.missingRule n) .critical
      | some e =>
        have h := ih2 st1 p e
        simp only
        generalize parseExpr R f st1 e = x at h
        generalize parseExpr R f (st1.recall p) e = y at h
        cases h
        · exact .ok _ _ _
        · exact .err _
        · exact .panic
        · exact .diverge
    · intro st p e
      cases e with
      | simple a => exact twin_atomAsExpr st p a
      | and es => exact ih3 st p es []
      | or es => exact ih4 st p es none
      | not e =>
        rw [parseExpr, parseExpr]
        have h := ih2 st p e
        generalize parseExpr R f st e = x at h
        generalize parseExpr R f (st.recall p) e = y at h
        cases h
        · exact twin_raise st p .not .normal
        · exact .ok _ _ _
        · exact .panic
        · exact .diverge
      | rep e mn mx => exact ih5 e mn mx st p 0 []
      | ruleName n =>
        rw [parseExpr, parseExpr]
        have h := ih1 st p n
        generalize parseRuleName R f st n = x at h
        generalize parseRuleName R f (st.recall p) n = y at h
        cases h
        · exact .ok _ _ _
        · exact .err _
        · exact .panic
        · exact .diverge
    · intro st p es acc
      cases es with
      | nil => exact .ok _ _ _
      | cons e es =>
        rw [parseAnd, parseAnd]
        have h := ih2 st p e
        generalize parseExpr R f st e = x at h
        generalize parseExpr R f (st.recall p) e = y at h
        cases h
        · exact ih3 _ _ es _
        · exact .err _
        · exact .panic
        · exact .diverge
    · intro st p es acc
      cases es with
      | nil =>
        cases acc with
        | none => exact twin_raise st p .orLogic .normal
        | some e => exact .err e
      | cons e es =>
        rw [parseOr, parseOr]
        have h := ih2 st p e
        generalize parseExpr R f st e = x at h
        generalize parseExpr R f (st.recall p) e = y at h
        cases h
        · exact .ok _ _ _
        · simp only
          split
          · exact .err _
          · exact ih4 st p es _
        · exact .panic
        · exact .diverge
    · intro e mn mx st p k acc
      rw [parseRepeat, parseRepeat]
      have h := ih2 st p e
      generalize parseExpr R f st e = x at h
      generalize parseExpr R f (st.recall p) e = y at h
      cases h
      · simp only
        split
        · exact .ok _ _ _
        · exact ih5 e mn mx _ _ _ _
      · simp only
        split
        · split
          · exact .err _
          · exact twin_refl _
        · exact .err _
      · exact .panic
      · exact .diverge

/-- errors do not depend on the error remembered -/
theorem runExpr_recall {R : SetOfRules} {st : Status} {e er} (p) (h : runExpr R st e = .err er) : runExpr R (st.recall p) e = .err er := by
  obtain ⟨f, hf⟩ := limit_ne h (by simp)
  have ht := (twin R f).2.1 st p e
  rw [hf] at ht
  generalize hy : parseExpr R f (st.recall p) e = y at ht
  cases ht
  exact runExpr_of hy (by simp)

end DP
