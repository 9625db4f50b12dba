/-
Runs with more rules: they are the same until a rule is missing.
-/
import Verif.Props.Rules
import Verif.Spec.Extend

namespace DP
open Spec

/-- the run ends because a rule that `R` does not have is called -/
def Missed (R : SetOfRules) {α : Type} (r : Out Error α) : Prop :=
  r = .panic ∨ ∃ e n, r = .err e ∧ e.priority = .critical ∧ e.descr = .missingRule n ∧ R.get n = none

theorem raise_missed {R : SetOfRules} {α : Type} {st : Status} {n : Str} (h : R.get n = none) :
    Missed R (raise (α := α) st (.missingRule n) .critical) := by
  unfold raise
  cases hf : fromStatus st (.missingRule n) .critical with
  | none => exact .inl rfl
  | some e =>
    obtain ⟨_, h1, h2, _⟩ := fromStatus_fields hf
    exact .inr ⟨e, n, rfl, h2, h1, h⟩

theorem extend_runs {R R' : SetOfRules} {S : Str → Prop} (hcl : ∀ n e m, S n → R.get n = some e → Refs e m → S m)
    (hE : ∀ n e, S n → R.get n = some e → R'.get n = some e)
    (hN : ∀ n e b, S n → R.get n = some e → Sub (.not b) e → Covered R b) : ∀ f,
    (∀ st n, S n → parseRuleName R' f st n = parseRuleName R f st n ∨ Missed R (parseRuleName R f st n)) ∧
    (∀ st e, (∀ m, Refs e m → S m) → (∀ b, Sub (.not b) e → Covered R b) →
      parseExpr R' f st e = parseExpr R f st e ∨ Missed R (parseExpr R f st e)) ∧
    (∀ st es acc, (∀ e ∈ es, ∀ m, Refs e m → S m) → (∀ e ∈ es, ∀ b, Sub (.not b) e → Covered R b) →
      parseAnd R' f st es acc = parseAnd R f st es acc ∨ Missed R (parseAnd R f st es acc)) ∧
    (∀ st es acc, (∀ e ∈ es, ∀ m, Refs e m → S m) → (∀ e ∈ es, ∀ b, Sub (.not b) e → Covered R b) →
      parseOr R' f st es acc = parseOr R f st es acc ∨ Missed R (parseOr R f st es acc)) ∧
    (∀ e mn mx st k acc, (∀ m, Refs e m → S m) → (∀ b, Sub (.not b) e → Covered R b) →
      parseRepeat R' f e mn mx st k acc = parseRepeat R f e mn mx st k acc ∨ Missed R (parseRepeat R f e mn mx st k acc)) := by
  intro f
  induction f with
  | zero => simp [parseRuleName, parseExpr, parseAnd, parseOr, parseRepeat]
  | succ f ih =>
    obtain ⟨ih1, ih2, ih3, ih4, ih5⟩ := ih
    refine ⟨?_, ?_, ?_, ?_, ?_⟩
    · intro st n hn
      rw [parseRuleName, parseRuleName]
      cases hg : R.get n with
      | none => exact .inr (raise_missed hg)
      | some e =>
        rw [hE n e hn hg]
        simp only
        rcases ih2 (if st.traceRules then st.pushRule (c!"r:" ++ n) else st) e (fun m hm => hcl n e m hn hg hm)
          (fun b hb => hN n e b hn hg hb) with h | h | ⟨x, m, h, h1⟩
        · exact .inl (by rw [h])
        · exact .inr (.inl (by rw [h]))
        · exact .inr (.inr ⟨x, m, by rw [h], h1⟩)
    · intro st e he hb
      cases e with
      | simple a => rw [parseExpr, parseExpr]; exact .inl rfl
      | and es =>
        rw [parseExpr, parseExpr]
        exact ih3 _ _ _ (fun e h m hm => he m (.and h hm)) (fun e h b hs => hb b (.and h hs))
      | or es =>
        rw [parseExpr, parseExpr]
        exact ih4 _ _ _ (fun e h m hm => he m (.or h hm)) (fun e h b hs => hb b (.or h hs))
      | rep e mn mx =>
        rw [parseExpr, parseExpr]
        exact ih5 _ _ _ _ _ _ (fun m hm => he m (.rep hm)) (fun b hs => hb b (.rep hs))
      | not e =>
        have hc := hb e (.refl _)
        -- everything that the negated expression leads to is there
        have hl : ∀ n m, S n → Relation.ReflTransGen (fun n m => ∃ e, grammar R n = some e ∧ Refs e m) n m → S m := by
          intro n m hn hr
          induction hr with
          | refl => exact hn
          | tail _ h ih =>
            obtain ⟨e, h1, h2⟩ := h
            exact hcl _ e _ ih h1 h2
        have ag := (agree_fuel (R := R) (R' := R')
          (S := fun m => ∃ n, Refs e n ∧ Relation.ReflTransGen (fun n m => ∃ e, grammar R n = some e ∧ Refs e m) n m)
          (fun m ⟨n, h1, h2⟩ => by
            obtain ⟨x, hx⟩ := hc n h1 m h2
            have hx' : R.get m = some x := hx
            rw [hx', hE m x (hl n m (he n (.not h1)) h2) hx'])
          (fun m x k ⟨n, h1, h2⟩ hg hr => ⟨n, h1, h2.tail ⟨x, hg, hr⟩⟩) f).2.1 st e (fun m hm => ⟨m, hm, .refl⟩)
        rw [parseExpr, parseExpr, ag]
        exact .inl rfl
      | ruleName n =>
        rw [parseExpr, parseExpr]
        rcases ih1 st n (he n (.here n)) with h | h | ⟨x, m, h, h1⟩
        · exact .inl (by rw [h])
        · exact .inr (.inl (by rw [h]))
        · exact .inr (.inr ⟨x, m, by rw [h], h1⟩)
    · intro st es acc he hb
      cases es with
      | nil => rw [parseAnd, parseAnd]; exact .inl rfl
      | cons e es =>
        rw [parseAnd, parseAnd]
        rcases ih2 st e (he e (by simp)) (hb e (by simp)) with h | h | ⟨x, m, h, h1⟩
        · rw [h]
          cases parseExpr R f st e with
          | ok x => exact ih3 _ _ _ (fun e h => he e (by simp [h])) (fun e h => hb e (by simp [h]))
          | _ => exact .inl rfl
        · exact .inr (.inl (by rw [h]))
        · exact .inr (.inr ⟨x, m, by rw [h], h1⟩)
    · intro st es acc he hb
      cases es with
      | nil => cases acc <;> rw [parseOr, parseOr] <;> exact .inl rfl
      | cons e es =>
        rw [parseOr, parseOr]
        rcases ih2 st e (he e (by simp)) (hb e (by simp)) with h | h | ⟨x, m, h, h1⟩
        · rw [h]
          cases parseExpr R f st e with
          | err er =>
            simp only
            split
            · exact .inl rfl
            · exact ih4 _ _ _ (fun e h => he e (by simp [h])) (fun e h => hb e (by simp [h]))
          | _ => exact .inl rfl
        · exact .inr (.inl (by rw [h]))
        · exact .inr (.inr ⟨x, m, by rw [h]; simp only; rw [if_pos h1.1], h1⟩)
    · intro e mn mx st k acc he hb
      rw [parseRepeat, parseRepeat]
      rcases ih2 st e he hb with h | h | ⟨x, m, h, h1⟩
      · rw [h]
        cases parseExpr R f st e with
        | ok x =>
          simp only
          split
          · exact .inl rfl
          · exact ih5 _ _ _ _ _ _ he hb
        | _ => exact .inl rfl
      · exact .inr (.inl (by rw [h]))
      · refine .inr (.inr ⟨x, m, ?_, h1⟩)
        rw [h]
        simp only
        split
        · rw [if_pos h1.1]
        · rfl

theorem extend_fuel {R R' : SetOfRules} (hE : ∀ n e, Reach (grammar R) n → grammar R n = some e → grammar R' n = some e)
    (hN : ∀ n e b, Reach (grammar R) n → grammar R n = some e → Sub (.not b) e → Covered R b) (f : Nat) (s : Str) (d : Bool) :
    parseWithDebugF f s R' d = parseWithDebugF f s R d ∨ Missed R (parseWithDebugF f s R d) := by
  have h := (extend_runs (R := R) (R' := R') (S := Reach (grammar R)) (fun n e m hn hg hm => .step hn hg hm) hE hN f).1
  unfold parseWithDebugF parseMain
  have key : ∀ st, (parseRuleName R' f st c!"main" = parseRuleName R f st c!"main") ∨ Missed R (parseRuleName R f st c!"main") :=
    fun st => h st _ .main
  cases d with
  | true =>
    simp only [if_true]
    rcases key (.initDebug s true) with h | h | ⟨x, m, h, h1⟩
    · exact .inl (by rw [h])
    · exact .inr (.inl (by rw [h]))
    · exact .inr (.inr ⟨x, m, by rw [h], h1⟩)
  | false =>
    simp only [Bool.false_eq_true, if_false]
    rcases key (.init s) with h | h | ⟨x, m, h, h1⟩
    · exact .inl (by rw [h])
    · exact .inr (.inl (by rw [h]))
    · exact .inr (.inr ⟨x, m, by rw [h], h1⟩)

theorem extend_limit {ε α : Type} {F H : Nat → Out ε α} {P : Out ε α → Prop} (hm : ∀ f, Out.le (F f) (F (f + 1)))
    (hd : ¬ P .diverge) (h : ∀ f, H f = F f ∨ P (F f)) : limit H = limit F ∨ P (limit F) := by
  by_cases hx : ∃ f, P (F f)
  · obtain ⟨f, hf⟩ := hx
    have hne : F f ≠ .diverge := fun e => hd (e ▸ hf)
    rw [limit_of hm rfl hne]
    exact .inr hf
  · left
    congr 1
    funext f
    rcases h f with h | h
    · exact h
    · exact absurd ⟨f, h⟩ hx

theorem missed_diverge {R : SetOfRules} {α : Type} : ¬ Missed R (.diverge : Out Error α) := by
  rintro (h | ⟨_, _, h, _⟩) <;> cases h

end DP
