/-
Renaming rules: the runs correspond step by step.
-/
import Verif.Spec.Rename
import Verif.Spec.Refs
import Verif.Proofs.Regroup

namespace DP
open Spec

section
variable (σ : Str → Str)

/-- the status with other names of rules -/
def renStatus (st : Status) : Status :=
  { st with potentialError := st.potentialError.map (renError σ),
            walkingRules := st.walkingRules.map fun m => c!"r:" ++ σ (m.drop 2) }

/-- the result with other names of rules -/
def renRun : Out Error (Status × List Node) → Out Error (Status × List Node)
  | .ok x => .ok (renStatus σ x.1, renNodes σ x.2)
  | .err e => .err (renError σ e)
  | .panic => .panic
  | .diverge => .diverge

def renRule : Out Error (Status × Node) → Out Error (Status × Node)
  | .ok x => .ok (renStatus σ x.1, renNode σ x.2)
  | .err e => .err (renError σ e)
  | .panic => .panic
  | .diverge => .diverge

def renSt : Out Error Status → Out Error Status
  | .ok st => .ok (renStatus σ st)
  | .err e => .err (renError σ e)
  | .panic => .panic
  | .diverge => .diverge

theorem renNodes_append (a b) : renNodes σ (a ++ b) = renNodes σ a ++ renNodes σ b := by
  induction a with
  | nil => rfl
  | cons x xs ih => simp only [List.cons_append, renNodes, ih]

theorem ren_fromStatus (st d p) : fromStatus (renStatus σ st) (renDescr σ d) p = (fromStatus st d p).map (renError σ) := by
  unfold fromStatus
  rw [Option.map_map]; rfl

theorem ren_raise_run (st d p) : (raise (renStatus σ st) (renDescr σ d) p : Out Error (Status × List Node)) = renRun σ (raise st d p) := by
  unfold raise
  rw [ren_fromStatus]
  cases fromStatus st d p <;> rfl

theorem ren_raise_rule (st d p) : (raise (renStatus σ st) (renDescr σ d) p : Out Error (Status × Node)) = renRule σ (raise st d p) := by
  unfold raise
  rw [ren_fromStatus]
  cases fromStatus st d p <;> rfl

theorem ren_raise_st (st d p) : (raise (renStatus σ st) (renDescr σ d) p : Out Error Status) = renSt σ (raise st d p) := by
  unfold raise
  rw [ren_fromStatus]
  cases fromStatus st d p <;> rfl

theorem ren_getChar (st) : getChar (renStatus σ st) = match getChar st with
    | .ok x => .ok (renStatus σ x.1, x.2)
    | .error st => .error (renStatus σ st) := by
  unfold getChar
  show (match st.itParsing with | [] => _ | ch :: rest => _) = _
  cases st.itParsing <;> rfl

theorem ren_literal (lit : Str) : ∀ (l : Str) (st : Status), parseLiteralLoop lit (renStatus σ st) l =
    renSt σ (parseLiteralLoop lit st l) := by
  intro l
  induction l with
  | nil => intro st; rfl
  | cons ch l ih =>
    intro st
    rw [parseLiteralLoop, parseLiteralLoop]
    unfold parseChar
    rw [ren_getChar]
    rcases getChar st with st' | ⟨st', ch'⟩
    · exact ren_raise_st σ st' (.literal lit) .normal
    · simp only
      by_cases h : ch = ch'
      · rw [if_pos h, if_pos h]; exact ih st'
      · rw [if_neg h, if_neg h]
        exact ren_raise_st σ st' (.literal lit) .normal

theorem ren_atom (st a) : parseAtom (renStatus σ st) a = renRule σ (parseAtom st a) := by
  cases a with
  | literal l =>
    rw [parseAtom, parseAtom, parseLiteral, parseLiteral, ren_literal]
    cases parseLiteralLoop l st l <;> rfl
  | error m => exact ren_raise_rule σ st (.custom m) .critical
  | mtch cs rs =>
    rw [parseAtom, parseAtom, parseMatch, parseMatch, ren_getChar]
    rcases getChar st with st' | ⟨st', ch'⟩
    · exact ren_raise_rule σ st' (.mtch cs rs) .normal
    · simp only
      split
      · rfl
      · exact ren_raise_rule σ st' (.mtch cs rs) .normal
  | dot =>
    rw [parseAtom, parseAtom, parseDot, parseDot, ren_getChar]
    rcases getChar st with st' | ⟨st', ch'⟩
    · exact ren_raise_rule σ st' .dot .normal
    · rfl
  | eof =>
    rw [parseAtom, parseAtom, parseEof, parseEof, ren_getChar]
    rcases getChar st with st' | ⟨st', ch'⟩
    · rfl
    · exact ren_raise_rule σ st' .eof .normal

theorem ren_atomAsExpr (st a) : parseAtomAsExpr (renStatus σ st) a = renRun σ (parseAtomAsExpr st a) := by
  unfold parseAtomAsExpr
  rw [ren_atom]
  cases parseAtom st a <;> rfl

theorem ren_deepErr (acc : Option Error) (e : Error) :
    deepErr (acc.map (renError σ)) (renError σ e) = (deepErr acc e).map (renError σ) := by
  cases acc with
  | none => rfl
  | some e1 =>
    simp only [deepErr, Option.map_some]
    show (match e1.priority.gt e.priority, decide (e1.pos.n > e.pos.n) with | true, _ => _ | false, true => _ | false, false => _) = _
    cases e1.priority.gt e.priority <;> cases decide (e1.pos.n > e.pos.n) <;> rfl

theorem ren_push (st : Status) (n : Str) :
    (if (renStatus σ st).traceRules then (renStatus σ st).pushRule (c!"r:" ++ σ n) else renStatus σ st) =
      renStatus σ (if st.traceRules then st.pushRule (c!"r:" ++ n) else st) := by
  show (if st.traceRules then _ else _) = _
  cases st.traceRules
  · rfl
  · simp only [if_true, Status.pushRule, renStatus, List.map_append]
    rfl

variable {σ} {R R' : SetOfRules} {N : Str → Prop}

theorem rename_runs (hN : ∀ n, N n → ∀ e, R.get n = some e → ∀ m, Refs e m → N m)
    (hR : ∀ n, N n → R'.get (σ n) = (R.get n).map (renExpr σ)) : ∀ f,
    (∀ st n, N n → parseRuleName R' f (renStatus σ st) (σ n) = renRule σ (parseRuleName R f st n)) ∧
    (∀ st e, (∀ m, Refs e m → N m) → parseExpr R' f (renStatus σ st) (renExpr σ e) = renRun σ (parseExpr R f st e)) ∧
    (∀ st es acc, (∀ e ∈ es, ∀ m, Refs e m → N m) →
      parseAnd R' f (renStatus σ st) (renExprs σ es) (renNodes σ acc) = renRun σ (parseAnd R f st es acc)) ∧
    (∀ st es acc, (∀ e ∈ es, ∀ m, Refs e m → N m) →
      parseOr R' f (renStatus σ st) (renExprs σ es) (acc.map (renError σ)) = renRun σ (parseOr R f st es acc)) ∧
    (∀ e mn mx st k acc, (∀ m, Refs e m → N m) →
      parseRepeat R' f (renExpr σ e) mn mx (renStatus σ st) k (renNodes σ acc) = renRun σ (parseRepeat R f e mn mx st k acc)) := by
  intro f
  induction f with
  | zero =>
    refine ⟨?_, ?_, ?_, ?_, ?_⟩ <;> intros
    · rw [parseRuleName, parseRuleName]; rfl
    · rw [parseExpr, parseExpr]; rfl
    · rw [parseAnd, parseAnd]; rfl
    · rw [parseOr, parseOr]; rfl
    · rw [parseRepeat, parseRepeat]; rfl
  | succ f ih =>
    obtain ⟨ih1, ih2, ih3, ih4, ih5⟩ := ih
    refine ⟨?_, ?_, ?_, ?_, ?_⟩
    · intro st n hn
      rw [parseRuleName, parseRuleName, hR n hn, ren_push]
      generalize (if st.traceRules then st.pushRule (c!"r:" ++ n) else st) = st'
      cases hg : R.get n with
      | none => exact ren_raise_rule σ st' (.missingRule n) .critical
      | some e =>
        simp only [Option.map_some]
        rw [ih2 st' e (hN n hn e hg)]
        cases parseExpr R f st' e <;> rfl
    · intro st e he
      cases e with
      | simple a => rw [renExpr, parseExpr, parseExpr]; exact ren_atomAsExpr σ st a
      | and es =>
        rw [renExpr, parseExpr, parseExpr]
        exact ih3 st es [] (fun e h m hm => he m (.and h hm))
      | or es =>
        rw [renExpr, parseExpr, parseExpr]
        exact ih4 st es none (fun e h m hm => he m (.or h hm))
      | not e =>
        rw [renExpr, parseExpr, parseExpr, ih2 st e (fun m hm => he m (.not hm))]
        rcases parseExpr R f st e with x | x | _ | _
        · exact ren_raise_run σ st .not .normal
        all_goals rfl
      | rep e mn mx =>
        rw [renExpr, parseExpr, parseExpr]
        exact ih5 e mn mx st 0 [] (fun m hm => he m (.rep hm))
      | ruleName n =>
        rw [renExpr, parseExpr, parseExpr, ih1 st n (he n (.here n))]
        cases parseRuleName R f st n <;> rfl
    · intro st es acc he
      cases es with
      | nil => rw [renExprs, parseAnd, parseAnd]; rfl
      | cons e es =>
        rw [renExprs, parseAnd, parseAnd, ih2 st e (he e (by simp))]
        rcases parseExpr R f st e with x | x | _ | _
        · simp only [renRun]
          rw [← renNodes_append]
          exact ih3 x.1 es (acc ++ x.2) (fun e h => he e (by simp [h]))
        all_goals rfl
    · intro st es acc he
      cases es with
      | nil =>
        rw [renExprs]
        cases acc with
        | none => simp only [Option.map_none, parseOr]; exact ren_raise_run σ st .orLogic .normal
        | some e => simp only [Option.map_some, parseOr]; rfl
      | cons e es =>
        rw [renExprs, parseOr, parseOr, ih2 st e (he e (by simp))]
        rcases parseExpr R f st e with x | x | _ | _
        · rfl
        · simp only [renRun]
          show (if x.priority = .critical then _ else _) = _
          split
          · rfl
          · rw [ren_deepErr]
            exact ih4 st es (deepErr acc x) (fun e h => he e (by simp [h]))
        all_goals rfl
    · intro e mn mx st k acc he
      rw [parseRepeat, parseRepeat, ih2 st e he]
      rcases parseExpr R f st e with x | x | _ | _
      · simp only [renRun]
        split
        · simp only [renNodes_append]
        · rw [← renNodes_append]
          exact ih5 e mn mx x.1 (k + 1) (acc ++ x.2) he
      · simp only [renRun]
        split
        · show (if x.priority = .critical then _ else _) = _
          split <;> rfl
        · rfl
      all_goals rfl

end

end DP
