/-
A generic induction principle over runs of the parser: predicates on the status and on errors that are
preserved by the primitive steps hold of every status and error the parser returns.
-/
import Verif.Proofs.Fuel
import Verif.Spec.Refs

namespace DP
open Spec

/-- The kinds of errors raised by the parser, when the names called satisfy `N`. -/
inductive Raised (R : SetOfRules) (N : Str → Prop) : Descr → Prio → Prop
  | literal (l) : Raised R N (.literal l) .normal
  | custom (s) : Raised R N (.custom s) .critical
  | dot : Raised R N .dot .normal
  | mtch (a b) : Raised R N (.mtch a b) .normal
  | eof : Raised R N .eof .normal
  | missing (n) : N n → R.get n = none → Raised R N (.missingRule n) .critical
  | orLogic : Raised R N .orLogic .normal
  | not : Raised R N .not .normal

structure Preserved (R : SetOfRules) (N : Str → Prop) (P : Status → Prop) (E : Error → Prop)
    (Pan : Prop) : Prop where
  get : ∀ {st st' c}, P st → getChar st = .ok (st', c) → P st'
  push : ∀ {st n}, P st → N n → st.traceRules = true → P (st.pushRule (c!"r:" ++ n))
  pot : ∀ {st e}, P st → E e → e.priority ≠ .critical → P (st.setPotentialError e)
  err : ∀ {st d p e}, P st → Raised R N d p → fromStatus st d p = some e → E e
  pan : ∀ {st d p}, P st → Raised R N d p → fromStatus st d p = none → Pan

/-- The result of a parsing function satisfies the predicates. -/
def Good (P : Status → Prop) (E : Error → Prop) (Pan : Prop) {α : Type} :
    Out Error (Status × α) → Prop
  | .ok x => P x.1
  | .err e => E e
  | .panic => Pan
  | .diverge => True

section
variable {R : SetOfRules} {N : Str → Prop} {P : Status → Prop} {E : Error → Prop} {Pan : Prop}

theorem getChar_error {st st' : Status} (h : getChar st = .error st') : st' = st := by
  unfold getChar at h
  cases hi : st.itParsing with
  | nil => rw [hi] at h; simpa using h.symm
  | cons c r => rw [hi] at h; simp at h

theorem good_raise (H : Preserved R N P E Pan) {α : Type} {st d p} (hP : P st)
    (hr : Raised R N d p) : Good P E Pan (raise st d p : Out Error (Status × α)) := by
  unfold raise
  cases h : fromStatus st d p with
  | none => exact H.pan hP hr h
  | some e => exact H.err hP hr h

theorem preserve_parseChar (H : Preserved R N P E Pan) {st ch} (hP : P st) :
    match parseChar st ch with
    | .ok st' => P st'
    | .error st' => P st' := by
  unfold parseChar
  cases hg : getChar st with
  | error st' => simpa [getChar_error hg] using hP
  | ok x =>
    obtain ⟨st', c⟩ := x
    have := H.get hP hg
    by_cases hc : ch = c <;> simp [hc, this]

theorem preserve_literalLoop (H : Preserved R N P E Pan) (lit : Str) : ∀ (l : Str) (st : Status),
    P st → match parseLiteralLoop lit st l with
      | .ok st' => P st'
      | .err e => E e
      | .panic => Pan
      | .diverge => True := by
  intro l
  induction l with
  | nil => intro st hP; simpa [parseLiteralLoop] using hP
  | cons ch l ih =>
    intro st hP
    have h1 := preserve_parseChar H (ch := ch) hP
    unfold parseLiteralLoop
    cases hc : parseChar st ch with
    | ok st' => rw [hc] at h1; exact ih st' h1
    | error st' =>
      rw [hc] at h1
      simp only [raise]
      cases h : fromStatus st' (.literal lit) .normal with
      | none => exact H.pan h1 (.literal _) h
      | some e => exact H.err h1 (.literal _) h

theorem preserve_atom (H : Preserved R N P E Pan) (a : Atom) {st} (hP : P st) :
    Good P E Pan (parseAtom st a) := by
  cases a with
  | literal s =>
    have := preserve_literalLoop H s s st hP
    simp only [parseAtom, parseLiteral]
    cases h : parseLiteralLoop s st s <;> rw [h] at this <;> exact this
  | error s => exact good_raise H hP (.custom _)
  | mtch cs rs =>
    simp only [parseAtom, parseMatch]
    cases hg : getChar st with
    | error st' => rw [getChar_error hg]; exact good_raise H hP (.mtch _ _)
    | ok x =>
      have := H.get hP hg
      simp only
      split
      · exact this
      · exact good_raise H this (.mtch _ _)
  | dot =>
    simp only [parseAtom, parseDot]
    cases hg : getChar st with
    | error st' => rw [getChar_error hg]; exact good_raise H hP .dot
    | ok x => exact H.get hP hg
  | eof =>
    simp only [parseAtom, parseEof]
    cases hg : getChar st with
    | error st' => rw [getChar_error hg]; exact hP
    | ok x => exact good_raise H (H.get hP hg) .eof

theorem preserve_atomAsExpr (H : Preserved R N P E Pan) (a : Atom) {st} (hP : P st) :
    Good P E Pan (parseAtomAsExpr st a) := by
  have := preserve_atom H a hP
  unfold parseAtomAsExpr
  cases h : parseAtom st a <;> rw [h] at this <;> exact this

theorem deepErr_cases (acc : Option Error) (e : Error) :
    deepErr acc e = some e ∨ (∃ a, acc = some a ∧ deepErr acc e = some a) := by
  unfold deepErr
  cases acc with
  | none => simp
  | some a => simp only; split <;> simp

/-- The induction principle. -/
theorem preserve (H : Preserved R N P E Pan)
    (hN : ∀ n e, R.get n = some e → ∀ m, Refs e m → N m) : ∀ f,
    (∀ st n, P st → N n → Good P E Pan (parseRuleName R f st n)) ∧
    (∀ st e, P st → (∀ m, Refs e m → N m) → Good P E Pan (parseExpr R f st e)) ∧
    (∀ st es acc, P st → (∀ e ∈ es, ∀ m, Refs e m → N m) →
      Good P E Pan (parseAnd R f st es acc)) ∧
    (∀ st es acc, P st → (∀ e ∈ es, ∀ m, Refs e m → N m) → (∀ e, acc = some e → E e) →
      Good P E Pan (parseOr R f st es acc)) ∧
    (∀ e mn mx st k acc, P st → (∀ m, Refs e m → N m) →
      Good P E Pan (parseRepeat R f e mn mx st k acc)) := by
  intro f
  induction f with
  | zero =>
    refine ⟨?_, ?_, ?_, ?_, ?_⟩ <;> intros
    · simp [parseRuleName, Good]
    · simp [parseExpr, Good]
    · simp [parseAnd, Good]
    · simp [parseOr, Good]
    · simp [parseRepeat, Good]
  | succ f ih =>
    obtain ⟨ih1, ih2, ih3, ih4, ih5⟩ := ih
    refine ⟨?_, ?_, ?_, ?_, ?_⟩
    · intro st n hP hn
      rw [parseRuleName]
      have hP' : P (if st.traceRules = true then st.pushRule (c!"r:" ++ n) else st) := by
        split
        · rename_i h; exact H.push hP hn h
        · exact hP
      cases hg : R.get n with
      | none => exact good_raise H hP' (.missing _ hn hg)
      | some e =>
        have := ih2 _ e hP' (hN n e hg)
        simp only
        cases h : parseExpr R f (if st.traceRules = true then st.pushRule (c!"r:" ++ n) else st) e <;>
          rw [h] at this <;> exact this
    · intro st e hP hr
      cases e with
      | simple a => rw [parseExpr]; exact preserve_atomAsExpr H a hP
      | and es => rw [parseExpr]; exact ih3 st es [] hP (fun e he m hm => hr m (.and he hm))
      | or es => rw [parseExpr]; exact ih4 st es none hP (fun e he m hm => hr m (.or he hm)) (by simp)
      | not e =>
        rw [parseExpr]
        have := ih2 st e hP (fun m hm => hr m (.not hm))
        cases h : parseExpr R f st e with
        | ok x => exact good_raise H hP .not
        | err e => exact hP
        | panic => rw [h] at this; exact this
        | diverge => trivial
      | rep e mn mx => rw [parseExpr]; exact ih5 e mn mx st 0 [] hP (fun m hm => hr m (.rep hm))
      | ruleName n =>
        rw [parseExpr]
        have := ih1 st n hP (hr n (.here n))
        cases h : parseRuleName R f st n <;> rw [h] at this <;> exact this
    · intro st es acc hP hr
      cases es with
      | nil => rw [parseAnd]; exact hP
      | cons e es =>
        rw [parseAnd]
        have := ih2 st e hP (hr e (by simp))
        cases h : parseExpr R f st e with
        | ok x => rw [h] at this; exact ih3 _ _ _ this (fun e he => hr e (by simp [he]))
        | err e => rw [h] at this; exact this
        | panic => rw [h] at this; exact this
        | diverge => trivial
    · intro st es acc hP hr hacc
      cases es with
      | nil =>
        cases acc with
        | none => rw [parseOr]; exact good_raise H hP .orLogic
        | some e => rw [parseOr]; exact hacc e rfl
      | cons e es =>
        rw [parseOr]
        have := ih2 st e hP (hr e (by simp))
        cases h : parseExpr R f st e with
        | ok x => rw [h] at this; exact this
        | err er =>
          rw [h] at this
          simp only
          split
          · exact this
          · refine ih4 _ _ _ hP (fun e he => hr e (by simp [he])) ?_
            intro e' he'
            rcases deepErr_cases acc er with hd | ⟨a, ha, hd⟩
            · rw [hd] at he'; cases he'; exact this
            · rw [hd] at he'; cases he'; exact hacc _ ha
        | panic => rw [h] at this; exact this
        | diverge => trivial
    · intro e mn mx st k acc hP hr
      rw [parseRepeat]
      have := ih2 st e hP hr
      cases h : parseExpr R f st e with
      | ok x =>
        rw [h] at this
        simp only
        split
        · exact this
        · exact ih5 _ _ _ _ _ _ this hr
      | err er =>
        rw [h] at this
        simp only
        split
        · split
          · exact this
          · exact H.pot hP this ‹_›
        · exact this
      | panic => rw [h] at this; exact this
      | diverge => trivial

end
end DP
