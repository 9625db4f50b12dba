/-
A checker for well-formedness certificates: a list of the nullable rules, and an order of the rules such
that every rule only left-calls rules that come before it.
-/
import Verif.Proofs.Total
import Verif.Proofs.Decide

namespace DP
open Spec

mutual
/-- may match without consuming, given the nullable rules -/
def nulE (nul : List Str) : Expr → Bool
  | .simple (.literal []) => true
  | .simple .eof => true
  | .simple _ => false
  | .and es => nulAll nul es
  | .or es => nulAny nul es
  | .not _ => true
  | .rep e mn mx => mn == 0 || mx == some 0 || nulE nul e
  | .ruleName n => nul.contains n
def nulAll (nul : List Str) : List Expr → Bool
  | [] => true
  | e :: es => nulE nul e && nulAll nul es
def nulAny (nul : List Str) : List Expr → Bool
  | [] => false
  | e :: es => nulE nul e || nulAny nul es
end

mutual
/-- all rules left-called by the expression satisfy `p` -/
def leftAll (nul : List Str) (p : Str → Bool) : Expr → Bool
  | .simple _ => true
  | .and es => leftSeq nul p es
  | .or es => leftEach nul p es
  | .not e => leftAll nul p e
  | .rep e _ _ => leftAll nul p e
  | .ruleName n => p n
def leftSeq (nul : List Str) (p : Str → Bool) : List Expr → Bool
  | [] => true
  | e :: es => leftAll nul p e && (!nulE nul e || leftSeq nul p es)
def leftEach (nul : List Str) (p : Str → Bool) : List Expr → Bool
  | [] => true
  | e :: es => leftAll nul p e && leftEach nul p es
end

mutual
/-- no unbounded repetition of a nullable body -/
def repsOK (nul : List Str) : Expr → Bool
  | .simple _ => true
  | .and es => repsAll nul es
  | .or es => repsAll nul es
  | .not e => repsOK nul e
  | .rep e _ mx => (mx.isSome || !nulE nul e) && repsOK nul e
  | .ruleName _ => true
def repsAll (nul : List Str) : List Expr → Bool
  | [] => true
  | e :: es => repsOK nul e && repsAll nul es
end

/-- position in the order, from 1; 0 for unknown names -/
def rankOf (ranks : List Str) (n : Str) : Nat := if ranks.contains n then ranks.idxOf n + 1 else 0

/-- the certificate check -/
def wfCheck (R : SetOfRules) (nul ranks : List Str) : Bool :=
  R.entries.all fun ne =>
    let e := effective ne.2
    (!nulE nul e || nul.contains ne.1) &&
    leftAll nul (fun m => decide (rankOf ranks m < rankOf ranks ne.1)) e &&
    repsOK nul e

theorem nulAll_of {nul es} (h : ∀ e ∈ es, nulE nul e = true) : nulAll nul es = true := by
  induction es with
  | nil => rfl
  | cons e es ih => rw [nulAll, h e (by simp), ih (fun e he => h e (by simp [he]))]; rfl

theorem nulAny_of {nul es e} (hm : e ∈ es) (h : nulE nul e = true) : nulAny nul es = true := by
  induction es with
  | nil => cases hm
  | cons x es ih =>
    rw [nulAny]
    rcases List.mem_cons.mp hm with rfl | hm
    · rw [h]; rfl
    · rw [ih hm]; simp

theorem nulE_of_canEmpty {G nul} (hG : ∀ n e, G n = some e → nulE nul e = true → nul.contains n = true)
    {e} (h : CanEmpty G e) : nulE nul e = true := by
  induction h with
  | lit => rfl
  | eof => rfl
  | and _ ih => rw [nulE]; exact nulAll_of ih
  | or hm _ ih => rw [nulE]; exact nulAny_of hm ih
  | not e => rw [nulE]
  | rep_zero e mx => simp [nulE]
  | rep_max_zero e mn => simp [nulE]
  | rep _ ih => simp [nulE, ih]
  | call hg _ ih => rw [nulE]; exact hG _ _ hg ih

theorem leftSeq_of {nul p} : ∀ {pre e post}, leftSeq nul p (pre ++ e :: post) = true →
    (∀ x ∈ pre, nulE nul x = true) → leftAll nul p e = true := by
  intro pre
  induction pre with
  | nil => intro e post h _; simp [leftSeq] at h; exact h.1
  | cons x pre ih =>
    intro e post h hp
    rw [List.cons_append, leftSeq, hp x (by simp)] at h
    simp at h
    exact ih h.2 (fun y hy => hp y (by simp [hy]))

theorem leftEach_of {nul p es e} (h : leftEach nul p es = true) (hm : e ∈ es) :
    leftAll nul p e = true := by
  induction es with
  | nil => cases hm
  | cons x es ih =>
    simp [leftEach] at h
    rcases List.mem_cons.mp hm with rfl | hm
    · exact h.1
    · exact ih h.2 hm

theorem left_of_check {G nul} {p : Str → Bool}
    (hG : ∀ n e, G n = some e → nulE nul e = true → nul.contains n = true)
    {e n} (hc : LeftCalls G e n) : leftAll nul p e = true → p n = true := by
  induction hc with
  | here n => intro h; rwa [leftAll] at h
  | and hp _ ih =>
    intro h
    rw [leftAll] at h
    exact ih (leftSeq_of h (fun x hx => nulE_of_canEmpty hG (hp x hx)))
  | or hm _ ih => intro h; rw [leftAll] at h; exact ih (leftEach_of h hm)
  | not _ ih => intro h; rw [leftAll] at h; exact ih h
  | rep _ ih => intro h; rw [leftAll] at h; exact ih h

theorem repsAll_of {nul es e} (h : repsAll nul es = true) (hm : e ∈ es) : repsOK nul e = true := by
  induction es with
  | nil => cases hm
  | cons x es ih =>
    simp [repsAll] at h
    rcases List.mem_cons.mp hm with rfl | hm
    · exact h.1
    · exact ih h.2 hm

theorem reps_of_check {nul b mn} : ∀ {x e}, Sub x e → x = .rep b mn none → repsOK nul e = true →
    nulE nul b = false := by
  intro x e h
  induction h with
  | refl => intro hx h; subst hx; rw [repsOK] at h; simp at h; exact h.1
  | and hm _ ih => intro hx h; rw [repsOK] at h; exact ih hx (repsAll_of h hm)
  | or hm _ ih => intro hx h; rw [repsOK] at h; exact ih hx (repsAll_of h hm)
  | not _ ih => intro hx h; rw [repsOK] at h; exact ih hx h
  | rep _ ih =>
    intro hx h; rw [repsOK] at h
    simp only [Bool.and_eq_true] at h
    exact ih hx h.2

/-- A checked certificate proves well-formedness. -/
theorem wf_of_check {R : SetOfRules} {nul ranks : List Str} (h : wfCheck R nul ranks = true) :
    WellFormed (denotes R) := by
  have hall : ∀ n e, denotes R n = some e → (nulE nul e = true → nul.contains n = true) ∧
      leftAll nul (fun m => decide (rankOf ranks m < rankOf ranks n)) e = true ∧
      repsOK nul e = true := by
    intro n e hg
    unfold denotes grammar at hg
    cases hl : R.entries.lookup n with
    | none => rw [hl] at hg; cases hg
    | some e' =>
      rw [hl] at hg
      simp only [Option.map_some, Option.some.injEq] at hg
      have hm : (n, e') ∈ R.entries := by
        obtain ⟨l1, l2, h1, _⟩ := List.lookup_eq_some_iff.mp hl
        rw [h1]; simp
      have := List.all_eq_true.mp h (n, e') hm
      simp only [hg, Bool.and_eq_true] at this
      refine ⟨?_, this.1.2, this.2⟩
      intro hn
      have h1 := this.1.1
      rw [hn] at h1
      simpa using h1
  have hG : ∀ n e, denotes R n = some e → nulE nul e = true → nul.contains n = true :=
    fun n e hg => (hall n e hg).1
  have hlt : ∀ n m, LeftStep (denotes R) n m → rankOf ranks m < rankOf ranks n := by
    rintro n m ⟨e, hg, hc⟩
    have := left_of_check hG hc (hall n e hg).2.1
    simpa using this
  constructor
  · intro n hn
    have : ∀ a b, Relation.TransGen (LeftStep (denotes R)) a b → rankOf ranks b < rankOf ranks a := by
      intro a b hab
      induction hab with
      | single h => exact hlt _ _ h
      | tail _ h ih => have := hlt _ _ h; omega
    have := this n n hn
    omega
  · intro n e b mn hg hs hc
    have h1 := reps_of_check hs rfl (hall n e hg).2.2
    have h2 := nulE_of_canEmpty hG hc
    rw [h1] at h2
    cases h2

end DP
