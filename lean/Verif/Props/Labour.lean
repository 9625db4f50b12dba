/-
C103, continued: the nodes moved and the characters written are those of the declarative semantics.
-/
import Verif.Props.Nodes
import Verif.Spec.Labour

namespace DP
open Spec

variable {G : Str → Option Expr}

/-- What is done is determined. -/
theorem labour_det {t s m c} (h : Labour G t s m c) : ∀ {m' c'}, Labour G t s m' c' → m = m' ∧ c = c' := by
  induction h with
  | atom_ok hp =>
    intro _ _ h
    cases h with
    | atom_ok hp' => cases peg_det hp hp'; exact ⟨rfl, rfl⟩
    | atom_no hp' ho => exact absurd (peg_det hp' hp) (ho _ _)
  | atom_no hp ho =>
    intro _ _ h
    cases h with
    | atom_ok hp' => exact absurd (peg_det hp hp') (ho _ _)
    | atom_no hp' ho => exact ⟨rfl, rfl⟩
  | and _ ih => intro _ _ h; cases h with | and h => exact ih h
  | or _ ih => intro _ _ h; cases h with | or h => exact ih h
  | not _ ih => intro _ _ h; cases h with | not h => exact ih h
  | rep _ ih => intro _ _ h; cases h with | rep h => exact ih h
  | call_ok hg _ hp ih =>
    intro _ _ h
    cases h with
    | call_ok hg' h hp' => rw [hg] at hg'; cases hg'; obtain ⟨rfl, rfl⟩ := ih h; exact ⟨rfl, rfl⟩
    | call_no hg' h hp' ho => rw [hg] at hg'; cases hg'; exact absurd (peg_det hp' hp) (ho _ _)
    | missing hg' => rw [hg] at hg'; cases hg'
  | call_no hg _ hp ho ih =>
    intro _ _ h
    cases h with
    | call_ok hg' h hp' => rw [hg] at hg'; cases hg'; exact absurd (peg_det hp hp') (ho _ _)
    | call_no hg' h hp' ho => rw [hg] at hg'; cases hg'; exact ih h
    | missing hg' => rw [hg] at hg'; cases hg'
  | missing hg =>
    intro _ _ h
    cases h with
    | call_ok hg' => rw [hg] at hg'; cases hg'
    | call_no hg' => rw [hg] at hg'; cases hg'
    | missing => exact ⟨rfl, rfl⟩
  | seq_nil => intro _ _ h; cases h; exact ⟨rfl, rfl⟩
  | seq_more _ hp _ ih1 ih2 =>
    intro _ _ h
    cases h with
    | seq_more h1 hp' h2 =>
      cases peg_det hp hp'
      obtain ⟨rfl, rfl⟩ := ih1 h1
      obtain ⟨rfl, rfl⟩ := ih2 h2
      exact ⟨rfl, rfl⟩
    | seq_stop h1 hp' ho => exact absurd (peg_det hp' hp) (ho _ _)
  | seq_stop _ hp ho ih =>
    intro _ _ h
    cases h with
    | seq_more h1 hp' h2 => exact absurd (peg_det hp hp') (ho _ _)
    | seq_stop h1 => exact ih h1
  | alt_nil => intro _ _ h; cases h; exact ⟨rfl, rfl⟩
  | alt_more _ hp _ ih1 ih2 =>
    intro _ _ h
    cases h with
    | alt_more h1 hp' h2 =>
      obtain ⟨rfl, rfl⟩ := ih1 h1
      obtain ⟨rfl, rfl⟩ := ih2 h2
      exact ⟨rfl, rfl⟩
    | alt_stop h1 hp' ho => exact absurd (peg_det hp' hp) ho
  | alt_stop _ hp ho ih =>
    intro _ _ h
    cases h with
    | alt_more h1 hp' h2 => exact absurd (peg_det hp hp') ho
    | alt_stop h1 => exact ih h1
  | loop_full =>
    intro _ _ h
    cases h with
    | loop_full => exact ⟨rfl, rfl⟩
    | loop_more h0 => exact absurd rfl h0
    | loop_stop h0 => exact absurd rfl h0
  | loop_more h0 _ hp _ ih1 ih2 =>
    intro _ _ h
    cases h with
    | loop_full => exact absurd rfl h0
    | loop_more _ h1 hp' h2 =>
      cases peg_det hp hp'
      obtain ⟨rfl, rfl⟩ := ih1 h1
      obtain ⟨rfl, rfl⟩ := ih2 h2
      exact ⟨rfl, rfl⟩
    | loop_stop _ h1 hp' ho => exact absurd (peg_det hp' hp) (ho _ _)
  | loop_stop h0 _ hp ho ih =>
    intro _ _ h
    cases h with
    | loop_full => exact absurd rfl h0
    | loop_more _ h1 hp' h2 => exact absurd (peg_det hp hp') (ho _ _)
    | loop_stop _ h1 => exact ih h1

theorem not_ok_of_err {R : SetOfRules} {e s x} (h : PegRes R e s (.err x)) : ∃ o, Peg (denotes R) e s o ∧ ∀ r ns, o ≠ .ok r ns := by
  simp only [PegRes] at h
  split at h
  · obtain ⟨w, q, h⟩ := h
    exact ⟨_, h, by simp⟩
  · exact ⟨_, h, by simp⟩

theorem work_moved (a b : NodeWork) : (a + b).moved = a.moved + b.moved := rfl
theorem work_chars (a b : NodeWork) : (a + b).chars = a.chars + b.chars := rfl
theorem work_zero : (0 : NodeWork) = ⟨0, 0⟩ := rfl

theorem nodes_labour {R : SetOfRules} (text : Str) : ∀ f,
    (∀ st n, Inv text st → Done (meterRuleName R f st n).1 →
      Labour (denotes R) (.one (.ruleName n)) st.itParsing (nodesRuleName R f st n).moved (nodesRuleName R f st n).chars) ∧
    (∀ st e, Inv text st → Done (meterExpr R f st e).1 →
      Labour (denotes R) (.one (effective e)) st.itParsing (nodesExpr R f st e).moved (nodesExpr R f st e).chars) ∧
    (∀ st es acc, Inv text st → Done (meterAnd R f st es acc).1 →
      Labour (denotes R) (.seq (effectives es)) st.itParsing (nodesAnd R f st es).moved (nodesAnd R f st es).chars) ∧
    (∀ st es acc, Inv text st → Done (meterOr R f st es acc).1 →
      Labour (denotes R) (.alt (effectives es)) st.itParsing (nodesOr R f st es).moved (nodesOr R f st es).chars) ∧
    (∀ e mn mx st k acc, Inv text st → (∀ m, mx = some (m + 1) → k < m + 1) → Done (meterRepeat R f e mn mx st k acc).1 →
      Labour (denotes R) (.loop (effective e) (roundsLeft mx k)) st.itParsing (nodesRepeat R f e mn mx st k).moved
        (nodesRepeat R f e mn mx st k).chars) := by
  intro f
  induction f with
  | zero =>
    refine ⟨?_, ?_, ?_, ?_, ?_⟩ <;> intros
    · rename_i h; rw [meterRuleName] at h; exact absurd rfl h.1
    · rename_i h; rw [meterExpr] at h; exact absurd rfl h.1
    · rename_i h; rw [meterAnd] at h; exact absurd rfl h.1
    · rename_i h; rw [meterOr] at h; exact absurd rfl h.1
    · rename_i h; rw [meterRepeat] at h; exact absurd rfl h.1
  | succ f ih =>
    obtain ⟨ih1, ih2, ih3, ih4, ih5⟩ := ih
    have er := (meter_erase R f).2.1
    refine ⟨?_, ?_, ?_, ?_, ?_⟩
    · intro st n hI hd
      have hI' : Inv text (if st.traceRules then st.pushRule (c!"r:" ++ n) else st) := by
        split
        · exact ⟨hI.text, hI.at_⟩
        · exact hI
      have hit : (if st.traceRules then st.pushRule (c!"r:" ++ n) else st).itParsing = st.itParsing := by split <;> rfl
      rw [meterRuleName] at hd
      rw [nodesRuleName]
      generalize (if st.traceRules then st.pushRule (c!"r:" ++ n) else st) = st' at *
      cases hg : R.get n with
      | none =>
        exact .missing (by show (grammar R n).map effective = none; rw [show grammar R n = none from hg]; rfl)
      | some e =>
        rw [hg] at hd
        have hG : denotes R n = some (effective e) := by
          show (grammar R n).map effective = _
          rw [show grammar R n = some e from hg]; rfl
        have h1 := ih2 st' e hI'
        have h2 := peg_of_sound (f := f) (e := e) hI' (er st' e).symm
        rw [hit] at h1 h2
        simp only at hd ⊢
        rw [← er]
        revert h1 h2 hd
        rcases meterExpr R f st' e with ⟨⟨s', v⟩ | x | _ | _, m⟩
        · intro hd h1 h2
          simp only [work_moved, work_chars, labelChars, Nat.add_zero]
          exact .call_ok hG (h1 ⟨by simp, by simp⟩) h2
        · intro hd h1 h2
          obtain ⟨o, h3, h4⟩ := not_ok_of_err h2
          exact .call_no hG (h1 ⟨by simp, by simp⟩) h3 h4
        · intro hd; exact absurd rfl hd.2
        · intro hd; exact absurd rfl hd.1
    · intro st e hI hd
      cases e with
      | simple a =>
        have h2 := peg_of_sound (R := R) (f := f + 1) (e := .simple a) hI rfl
        rw [effective] at h2 ⊢
        rw [nodesExpr]
        rw [parseExpr, parseAtomAsExpr] at h2
        rw [meterExpr, parseAtomAsExpr] at hd
        cases hx : parseAtom st a with
        | ok y =>
          obtain ⟨st', node⟩ := y
          rw [hx] at h2
          have h2 : Peg (denotes R) (.simple a) st.itParsing (.ok st'.itParsing [node]) := h2
          obtain ⟨v, rfl⟩ : ∃ v, node = .val v := by
            generalize st.itParsing = u at h2
            generalize st'.itParsing = u' at h2
            cases h2 <;> exact ⟨_, rfl⟩
          exact .atom_ok h2
        | err er =>
          rw [hx] at h2
          obtain ⟨o, h3, h4⟩ := not_ok_of_err h2
          exact .atom_no h3 h4
        | panic => rw [hx] at hd; exact absurd rfl hd.2
        | diverge => rw [hx] at hd; exact absurd rfl hd.1
      | and es => rw [meterExpr] at hd; rw [effective, nodesExpr]; exact .and (ih3 st es [] hI hd)
      | or es => rw [meterExpr] at hd; rw [effective, nodesExpr]; exact .or (ih4 st es none hI hd)
      | not e =>
        rw [meterExpr] at hd
        rw [effective, nodesExpr]
        refine .not (ih2 st e hI ?_)
        revert hd
        rcases meterExpr R f st e with ⟨x | x | _ | _, m⟩
        · intro _; exact ⟨by simp, by simp⟩
        · intro _; exact ⟨by simp, by simp⟩
        · intro hd; exact absurd rfl hd.2
        · intro hd; exact absurd rfl hd.1
      | rep e mn mx =>
        rw [meterExpr] at hd
        obtain ⟨mn', h⟩ := effective_rep e mn mx
        rw [h, nodesExpr]
        exact .rep (ih5 e mn mx st 0 [] hI (by omega) hd)
      | ruleName n =>
        rw [meterExpr] at hd
        rw [effective, nodesExpr]
        refine ih1 st n hI ?_
        revert hd
        rcases meterRuleName R f st n with ⟨x | x | _ | _, m⟩
        · intro _; exact ⟨by simp, by simp⟩
        · intro _; exact ⟨by simp, by simp⟩
        · intro hd; exact absurd rfl hd.2
        · intro hd; exact absurd rfl hd.1
    · intro st es acc hI hd
      cases es with
      | nil => rw [nodesAnd, effectives]; exact .seq_nil _
      | cons e es =>
        rw [meterAnd] at hd
        rw [nodesAnd, effectives]
        have h1 := ih2 st e hI
        have h2 := peg_of_sound (f := f) (e := e) hI (er st e).symm
        have h3 := fun x (h : (meterExpr R f st e).1 = .ok x) => inv_after hI ((er st e).symm.trans h)
        rw [← er]
        revert h1 h2 h3 hd
        rcases meterExpr R f st e with ⟨⟨s', v⟩ | x | _ | _, m⟩
        · intro hd h1 h2 h3
          simp only [work_moved, work_chars, Nat.zero_add]
          exact .seq_more (h1 ⟨by simp, by simp⟩) h2 (ih3 s' es (acc ++ v) (h3 _ rfl) hd)
        · intro hd h1 h2 h3
          obtain ⟨o, h4, h5⟩ := not_ok_of_err h2
          exact .seq_stop (h1 ⟨by simp, by simp⟩) h4 h5
        · intro hd; exact absurd rfl hd.2
        · intro hd; exact absurd rfl hd.1
    · intro st es acc hI hd
      cases es with
      | nil => rw [nodesOr, effectives]; exact .alt_nil _
      | cons e es =>
        rw [meterOr] at hd
        rw [nodesOr, effectives]
        have h1 := ih2 st e hI
        have h2 := peg_of_sound (f := f) (e := e) hI (er st e).symm
        rw [← er]
        revert h1 h2 hd
        rcases meterExpr R f st e with ⟨⟨s', v⟩ | x | _ | _, m⟩
        · intro hd h1 h2
          exact .alt_stop (h1 ⟨by simp, by simp⟩) h2 (by simp)
        · intro hd h1 h2
          simp only [PegRes] at h2 hd ⊢
          split at h2
          · rename_i hc
            obtain ⟨w, q, h2⟩ := h2
            rw [if_pos hc]
            exact .alt_stop (h1 ⟨by simp, by simp⟩) h2 (by simp)
          · rename_i hc
            rw [if_neg hc] at hd
            rw [if_neg hc]
            exact .alt_more (h1 ⟨by simp, by simp⟩) h2 (ih4 _ _ _ hI hd)
        · intro hd; exact absurd rfl hd.2
        · intro hd; exact absurd rfl hd.1
    · intro e mn mx st k acc hI hk hd
      rw [meterRepeat] at hd
      rw [nodesRepeat]
      have h0 := roundsLeft_ne hk
      have h1 := ih2 st e hI
      have h2 := peg_of_sound (f := f) (e := e) hI (er st e).symm
      have h3 := fun x (h : (meterExpr R f st e).1 = .ok x) => inv_after hI ((er st e).symm.trans h)
      rw [← er]
      revert h1 h2 h3 hd
      rcases meterExpr R f st e with ⟨⟨s', v⟩ | x | _ | _, m⟩
      · intro hd h1 h2 h3
        simp only [PegRes] at hd h2 ⊢
        cases ht : touchMaxBound mx k with
        | true =>
          rw [if_pos rfl]
          exact .loop_more h0 (h1 ⟨by simp, by simp⟩) h2 (m' := 0) (c' := 0) (by rw [roundsLeft_last ht]; exact .loop_full _ _)
        | false =>
          rw [ht] at hd
          simp only [Bool.false_eq_true, if_false] at hd ⊢
          obtain ⟨h4, h5⟩ := roundsLeft_next ht hk
          simp only [work_moved, work_chars, Nat.zero_add]
          exact .loop_more h0 (h1 ⟨by simp, by simp⟩) h2 (by rw [h4]; exact ih5 e mn mx s' (k + 1) (acc ++ v) (h3 _ rfl) h5 hd)
      · intro hd h1 h2 h3
        obtain ⟨o, h4, h5⟩ := not_ok_of_err h2
        exact .loop_stop h0 (h1 ⟨by simp, by simp⟩) h4 h5
      · intro hd; exact absurd rfl hd.2
      · intro hd; exact absurd rfl hd.1

/-- doing something comes to an end -/
theorem labour_effort {t s m c} (h : Labour G t s m c) : ∃ k d, Effort G t s k d := by
  induction h with
  | atom_ok => exact ⟨_, _, .simple _ _⟩
  | atom_no => exact ⟨_, _, .simple _ _⟩
  | and _ ih => obtain ⟨_, _, h⟩ := ih; exact ⟨_, _, .and h⟩
  | or _ ih => obtain ⟨_, _, h⟩ := ih; exact ⟨_, _, .or h⟩
  | not _ ih => obtain ⟨_, _, h⟩ := ih; exact ⟨_, _, .not h⟩
  | rep _ ih => obtain ⟨_, _, h⟩ := ih; exact ⟨_, _, .rep h⟩
  | call_ok hg _ _ ih => obtain ⟨_, _, h⟩ := ih; exact ⟨_, _, .call hg h⟩
  | call_no hg _ _ _ ih => obtain ⟨_, _, h⟩ := ih; exact ⟨_, _, .call hg h⟩
  | missing hg => exact ⟨_, _, .missing hg⟩
  | seq_nil => exact ⟨_, _, .seq_nil _⟩
  | seq_more _ hp _ ih1 ih2 => obtain ⟨_, _, h⟩ := ih1; obtain ⟨_, _, h'⟩ := ih2; exact ⟨_, _, .seq_more h hp h'⟩
  | seq_stop _ hp ho ih => obtain ⟨_, _, h⟩ := ih; exact ⟨_, _, .seq_stop h hp ho⟩
  | alt_nil => exact ⟨_, _, .alt_nil _⟩
  | alt_more _ hp _ ih1 ih2 => obtain ⟨_, _, h⟩ := ih1; obtain ⟨_, _, h'⟩ := ih2; exact ⟨_, _, .alt_more h hp h'⟩
  | alt_stop _ hp ho ih => obtain ⟨_, _, h⟩ := ih; exact ⟨_, _, .alt_stop h hp ho⟩
  | loop_full => exact ⟨_, _, .loop_full _ _⟩
  | loop_more h0 _ hp _ ih1 ih2 => obtain ⟨_, _, h⟩ := ih1; obtain ⟨_, _, h'⟩ := ih2; exact ⟨_, _, .loop_more h0 h hp h'⟩
  | loop_stop h0 _ hp ho ih => obtain ⟨_, _, h⟩ := ih; exact ⟨_, _, .loop_stop h0 h hp ho⟩

/-- **C103**: the nodes moved and the characters written are exactly those of the declarative semantics, where an attempt costs
what it costs also if it is given up. -/
theorem C103_exact {s : Str} (ha : Ascii s) (R : SetOfRules) (w : NodeWork) :
    Builds s R w ↔ Labour (denotes R) (.one (.ruleName c!"main")) s w.moved w.chars := by
  have forth : ∀ w, Builds s R w → Labour (denotes R) (.one (.ruleName c!"main")) s w.moved w.chars := by
    rintro w ⟨f, hd, rfl⟩
    refine (nodes_labour s f).1 (.init s) c!"main" (inv_init s) ?_
    rw [(meter_erase R f).1]
    exact ⟨hd, ne_panic_of_ascii ha hd⟩
  refine ⟨forth w, fun h => ?_⟩
  obtain ⟨k, d, he⟩ := labour_effort h
  have hd : parse s R ≠ .diverge := by
    cases he with
    | call hg he => exact (C53_uses s R).1.2 ⟨⟨_, _⟩, (C53_effort ha R ⟨_, _⟩).2 (.call hg he)⟩
    | missing hg => exact (C53_uses s R).1.2 ⟨⟨0, 0⟩, (C53_effort ha R ⟨0, 0⟩).2 (.missing hg)⟩
  obtain ⟨w', hw⟩ := (C103_exists s R).1 hd
  obtain ⟨h1, h2⟩ := labour_det h (forth w' hw)
  have : w = w' := by
    cases w; cases w'
    simp only at h1 h2
    rw [h1, h2]
  rwa [this]

/-! ### Examples -/

/-- `main = 'a' 'b' / 'a' 'c'` on `ac`: `a` is moved in both alternatives and `c` in one; three values and `main` are written -/
example : Labour (denotes acRules) (.one (.ruleName c!"main")) c!"ac" 3 7 :=
  (C103_exact (by decide) acRules ⟨3, 7⟩).1 ⟨20, by decide +kernel, by decide +kernel⟩

/-- on `ad` the name is not written -/
example : Labour (denotes acRules) (.one (.ruleName c!"main")) c!"ad" 2 2 :=
  (C103_exact (by decide) acRules ⟨2, 2⟩).1 ⟨20, by decide +kernel, by decide +kernel⟩

end DP
