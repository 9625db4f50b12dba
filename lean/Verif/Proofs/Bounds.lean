/-
A rule set and the one with its effective bounds are parsed identically; hence soundness and
completeness with respect to `denotes R`, for every rule set.
-/
import Verif.Proofs.Complete
import Verif.Spec.Bounds

namespace DP
open Spec

theorem effectives_eq_map (es) : effectives es = es.map effective := by
  induction es with
  | nil => rfl
  | cons e es ih => simp [effectives, ih]

theorem lookup_map_snd {α β : Type} [BEq α] (g : β → β) (l : List (α × β)) (n : α) :
    (l.map (fun ne => (ne.1, g ne.2))).lookup n = (l.lookup n).map g := by
  induction l with
  | nil => rfl
  | cons x l ih =>
    obtain ⟨a, b⟩ := x
    simp only [List.map_cons, List.lookup_cons]
    cases n == a <;> simp [ih]

theorem get_effective (R : SetOfRules) (n) : (effectiveRules R).get n = (R.get n).map effective :=
  lookup_map_snd effective R.entries n

theorem grammar_effective (R : SetOfRules) : grammar (effectiveRules R) = denotes R := by
  funext n; exact get_effective R n

mutual
theorem boundsOK_effective : ∀ e, BoundsOK (effective e)
  | .simple a => by rw [effective]; exact .simple a
  | .and es => by rw [effective]; exact .and (boundsOK_effectives es)
  | .or es => by rw [effective]; exact .or (boundsOK_effectives es)
  | .not e => by rw [effective]; exact .not (boundsOK_effective e)
  | .rep e mn none => by rw [effective]; exact .rep (boundsOK_effective e) (by simp)
  | .rep e mn (some 0) => by rw [effective]; exact .rep (boundsOK_effective e) (by simp)
  | .rep e mn (some (m + 1)) => by
    rw [effective]
    refine .rep (boundsOK_effective e) ?_
    intro m' h
    cases h
    exact ⟨by omega, by omega⟩
  | .ruleName n => by rw [effective]; exact .ruleName n
theorem boundsOK_effectives : ∀ es, ∀ e ∈ effectives es, BoundsOK e
  | [], e, h => by simp [effectives] at h
  | e' :: es, e, h => by
    rw [effectives, List.mem_cons] at h
    rcases h with rfl | h
    · exact boundsOK_effective e'
    · exact boundsOK_effectives es e h
end

theorem rulesBoundsOK_effective (R) : RulesBoundsOK (effectiveRules R) := by
  intro ne h
  simp only [effectiveRules, List.mem_map] at h
  obtain ⟨x, _, rfl⟩ := h
  exact boundsOK_effective _

theorem effective_of_boundsOK {e} (h : BoundsOK e) : effective e = e := by
  induction h with
  | simple a => rw [effective]
  | @and es _ ih =>
    rw [effective, effectives_eq_map]
    congr 1
    conv_rhs => rw [← List.map_id es]
    exact List.map_congr_left (fun e he => ih e he)
  | @or es _ ih =>
    rw [effective, effectives_eq_map]
    congr 1
    conv_rhs => rw [← List.map_id es]
    exact List.map_congr_left (fun e he => ih e he)
  | not _ ih => rw [effective, ih]
  | @rep e mn mx _ hm ih =>
    cases mx with
    | none => rw [effective, ih]
    | some m =>
      cases m with
      | zero => have := (hm 0 rfl).1; omega
      | succ m =>
        rw [effective, ih]
        have := (hm _ rfl).2
        congr 1; omega
  | ruleName n => rw [effective]

theorem denotes_of_boundsOK {R} (h : RulesBoundsOK R) : denotes R = grammar R := by
  funext n
  unfold denotes
  cases hg : grammar R n with
  | none => rfl
  | some e => rw [Option.map_some, effective_of_boundsOK (getBounds h hg)]

theorem effective_run (R : SetOfRules) : ∀ f,
    (∀ st n, parseRuleName (effectiveRules R) f st n = parseRuleName R f st n) ∧
    (∀ st e, parseExpr (effectiveRules R) f st (effective e) = parseExpr R f st e) ∧
    (∀ st es acc, parseAnd (effectiveRules R) f st (effectives es) acc = parseAnd R f st es acc) ∧
    (∀ st es acc, parseOr (effectiveRules R) f st (effectives es) acc = parseOr R f st es acc) ∧
    (∀ e mn st k acc, parseRepeat (effectiveRules R) f (effective e) mn none st k acc =
      parseRepeat R f e mn none st k acc) ∧
    (∀ e mn st k acc, parseRepeat (effectiveRules R) f (effective e) mn none st k acc =
      parseRepeat R f e mn (some 0) st k acc) ∧
    (∀ e mn m st k acc, k < m + 1 →
      parseRepeat (effectiveRules R) f (effective e) (min mn (m + 1)) (some (m + 1)) st k acc =
      parseRepeat R f e mn (some (m + 1)) st k acc) := by
  intro f
  induction f with
  | zero =>
    refine ⟨?_, ?_, ?_, ?_, ?_, ?_, ?_⟩ <;> intros
    · rw [parseRuleName, parseRuleName]
    · rw [parseExpr, parseExpr]
    · rw [parseAnd, parseAnd]
    · rw [parseOr, parseOr]
    · rw [parseRepeat, parseRepeat]
    · rw [parseRepeat, parseRepeat]
    · rw [parseRepeat, parseRepeat]
  | succ f ih =>
    obtain ⟨ih1, ih2, ih3, ih4, ih5, ih6, ih7⟩ := ih
    refine ⟨?_, ?_, ?_, ?_, ?_, ?_, ?_⟩
    · intro st n
      rw [parseRuleName, parseRuleName, get_effective]
      cases R.get n with
      | none => rfl
      | some e => simp only [Option.map_some, ih2]
    · intro st e
      match e with
      | .simple a => rw [effective, parseExpr, parseExpr]
      | .and es => rw [effective, parseExpr, parseExpr, ih3]
      | .or es => rw [effective, parseExpr, parseExpr, ih4]
      | .not e => rw [effective, parseExpr, parseExpr, ih2]
      | .rep e mn none => rw [effective, parseExpr, parseExpr, ih5]
      | .rep e mn (some 0) => rw [effective, parseExpr, parseExpr, ih6]
      | .rep e mn (some (m + 1)) => rw [effective, parseExpr, parseExpr, ih7 _ _ _ _ _ _ (by omega)]
      | .ruleName n => rw [effective, parseExpr, parseExpr, ih1]
    · intro st es acc
      cases es with
      | nil => rw [effectives, parseAnd, parseAnd]
      | cons e es => rw [effectives, parseAnd, parseAnd, ih2]; simp only [ih3]
    · intro st es acc
      cases es with
      | nil => rw [effectives]; cases acc <;> rw [parseOr, parseOr]
      | cons e es => rw [effectives, parseOr, parseOr, ih2]; simp only [ih4]
    · intro e mn st k acc
      rw [parseRepeat, parseRepeat, ih2]; simp only [ih5]
    · intro e mn st k acc
      rw [parseRepeat, parseRepeat, ih2]; simp only [ih6]
      have h0 : touchMaxBound none k = touchMaxBound (some 0) k := by simp [touchMaxBound]
      rw [h0]
    · intro e mn m st k acc hk
      rw [parseRepeat, parseRepeat, ih2]
      have hb : bigMinBound (min mn (m + 1)) k = bigMinBound mn k := by
        simp only [bigMinBound]; congr 1; simp; omega
      rw [hb]
      cases parseExpr R f st e with
      | ok x =>
        simp only
        split
        · rfl
        · rename_i ht
          have : k + 1 ≠ m + 1 := by simpa [touchMaxBound] using ht
          exact ih7 _ _ _ _ _ _ (by omega)
      | err er => rfl
      | panic => rfl
      | diverge => rfl

theorem parseExpr_effective (R f st e) :
    parseExpr (effectiveRules R) f st (effective e) = parseExpr R f st e := (effective_run R f).2.1 st e

theorem parseWithDebugF_effective (R f s b) :
    parseWithDebugF f s (effectiveRules R) b = parseWithDebugF f s R b := by
  unfold parseWithDebugF parseMain
  rw [(effective_run R f).1, (effective_run R f).1]

/-- Soundness, for every rule set. -/
theorem sound_all {R : SetOfRules} {text f st e} (hI : Inv text st) :
    SoundRes (denotes R) text (effective e) st.itParsing (parseExpr R f st e) := by
  have := sound_expr (rulesBoundsOK_effective R) (f := f) hI (boundsOK_effective e)
  rw [parseExpr_effective, grammar_effective] at this
  exact this

/-- Completeness, for every rule set. -/
theorem complete_all {R : SetOfRules} {text e o st} (hI : Inv text st)
    (h : Peg (denotes R) (effective e) st.itParsing o) :
    ∃ f, parseExpr R f st e = .panic ∨ Agrees text (parseExpr R f st e) o := by
  rw [← grammar_effective] at h
  have := complete (rulesBoundsOK_effective R) hI (boundsOK_effective e) h
  simpa only [parseExpr_effective] using this

end DP
