/-
From the parsing functions to the API.
-/
import Verif.Proofs.Bounds
import Verif.Proofs.Run

namespace DP
open Spec

theorem runExpr_elim (R st e) : runExpr R st e = .diverge ∨ ∃ f, parseExpr R f st e = runExpr R st e := by
  rcases limit_elim (fun f => parseExpr R f st e) with ⟨h, _⟩ | ⟨n, h, _⟩
  · exact Or.inl h
  · exact Or.inr ⟨n, h⟩

theorem runExpr_of {R st e f x} (h : parseExpr R f st e = x) (hd : x ≠ .diverge) : runExpr R st e = x :=
  limit_of (chain_expr R st e) h hd

theorem runRule_elim (R st n) : runRule R st n = .diverge ∨ ∃ f, parseRuleName R f st n = runRule R st n := by
  rcases limit_elim (fun f => parseRuleName R f st n) with ⟨h, _⟩ | ⟨m, h, _⟩
  · exact Or.inl h
  · exact Or.inr ⟨m, h⟩

theorem runExpr_sound {R : SetOfRules} {text st e} (hI : Inv text st) :
    SoundRes (denotes R) text (effective e) st.itParsing (runExpr R st e) := by
  rcases runExpr_elim R st e with h | ⟨f, h⟩
  · rw [h]; trivial
  · rw [← h]; exact sound_all hI

theorem runExpr_complete {R : SetOfRules} {text e o st} (hI : Inv text st)
    (h : Peg (denotes R) (effective e) st.itParsing o) :
    runExpr R st e = .panic ∨ Agrees text (runExpr R st e) o := by
  obtain ⟨f, hf⟩ := complete_all hI h
  rcases hf with hf | hf
  · exact Or.inl (runExpr_of hf (by simp))
  · right
    have hne : parseExpr R f st e ≠ .diverge := by
      intro hd; rw [hd] at hf
      cases o <;> obtain ⟨_, h1, _⟩ := hf <;> cases h1
    rw [runExpr_of rfl hne]; exact hf

theorem good_runRule {R : SetOfRules} {N P E Pan} (H : Preserved R N P E Pan)
    (hN : ∀ n e, R.get n = some e → ∀ m, Refs e m → N m) {st n} (hP : P st) (hn : N n) :
    Good P E Pan (runRule R st n) := by
  rcases runRule_elim R st n with h | ⟨f, h⟩
  · rw [h]; trivial
  · rw [← h]; exact (preserve H hN f).1 st n hP hn

theorem good_runExpr {R : SetOfRules} {N P E Pan} (H : Preserved R N P E Pan)
    (hN : ∀ n e, R.get n = some e → ∀ m, Refs e m → N m) {st e} (hP : P st)
    (hn : ∀ m, Refs e m → N m) : Good P E Pan (runExpr R st e) := by
  rcases runExpr_elim R st e with h | ⟨f, h⟩
  · rw [h]; trivial
  · rw [← h]; exact (preserve H hN f).2.1 st e hP hn

/-- the invariant of the status after `main` -/
theorem inv_main {R s st t} (h : runRule R (Status.init s) c!"main" = .ok (st, t)) : InvP s st := by
  have := good_runRule (preserved_invP R s) (fun _ _ _ _ _ => trivial) (n := c!"main") (invP_init s) trivial
  rw [h] at this; exact this

theorem inv_end {s st} (hI : Inv s st) (h : st.pos.n = byteLen s) : st.itParsing = [] ∧ Ascii s := by
  obtain ⟨_, pre, hs, hc⟩ := hI
  have h1 := length_le_byteLen s
  have h2 := hc.n
  have h3 := congrArg List.length hs
  rw [List.length_append] at h3
  refine ⟨?_, ascii_of_byteLen (by omega)⟩
  cases hr : st.itParsing with
  | nil => rfl
  | cons c r => rw [hr, List.length_cons] at h3; omega

theorem end_inv {s st} (hI : Inv s st) (ha : Ascii s) : st.pos.n = byteLen s ↔ st.itParsing = [] := by
  constructor
  · intro h; exact (inv_end hI h).1
  · intro h
    obtain ⟨_, pre, hs, hc⟩ := hI
    rw [h, List.append_nil] at hs
    rw [hc.n, ← hs, byteLen_ascii ha]

theorem runRule_main_ok {R s st t} (h : runRule R (Status.init s) c!"main" = .ok (st, t)) :
    Peg (denotes R) (.ruleName c!"main") s (.ok st.itParsing [t]) := by
  have := runExpr_sound (R := R) (e := .ruleName c!"main") (inv_init s)
  rw [runExpr_ruleName, h, effective] at this
  exact this

theorem runRule_main_err {R s er} (h : runRule R (Status.init s) c!"main" = .err er) :
    (er.priority = .normal ∧ Peg (denotes R) (.ruleName c!"main") s .fail) ∨
    (er.priority = .critical ∧ ∃ pre r, s = pre ++ r ∧ CoordsOf pre er.pos ∧
      Peg (denotes R) (.ruleName c!"main") s (.crit er.descr r)) := by
  have := runExpr_sound (R := R) (e := .ruleName c!"main") (inv_init s)
  rw [runExpr_ruleName, h, effective] at this
  exact this

theorem main_complete {R s o} (h : Peg (denotes R) (.ruleName c!"main") s o) :
    runRule R (Status.init s) c!"main" = .panic ∨
      Agrees s (asExpr (runRule R (Status.init s) c!"main")) o := by
  have := runExpr_complete (R := R) (e := .ruleName c!"main") (inv_init s) (o := o) (by
    rw [effective]; exact h)
  rw [runExpr_ruleName] at this
  rcases this with h | h
  · left
    cases hx : runRule R (Status.init s) c!"main" <;> rw [hx] at h <;> simp_all [asExpr]
  · exact Or.inr h

theorem runRule_ne_panic {R s st n} (ha : Ascii s) (hI : InvP s st) : runRule R st n ≠ .panic := by
  intro h
  have := good_runRule (preserved_ascii R ha) (fun _ _ _ _ _ => trivial) (n := n) hI trivial
  rw [h] at this; exact this

theorem runExpr_ne_panic {R s st e} (ha : Ascii s) (hI : InvP s st) : runExpr R st e ≠ .panic := by
  intro h
  have := good_runExpr (preserved_ascii R ha) (fun _ _ _ _ _ => trivial) (e := e) hI (fun _ _ => trivial)
  rw [h] at this; exact this

theorem raise_ascii {α s st d p} (ha : Ascii s) (hI : Inv s st) :
    ∃ e, (raise st d p : Out Error α) = .err e ∧ fromStatus st d p = some e := by
  obtain ⟨e, he⟩ := fromStatus_ascii ha hI d p
  exact ⟨e, by unfold raise; rw [he], he⟩

end DP
