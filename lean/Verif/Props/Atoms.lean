/-
C36: what the atoms match.
-/
import Verif.Props.Core

namespace DP
open Spec

/-- `Takes R st e r ns`: in the state `st` the parser matches `e`, leaves the text `r` and yields `ns`. -/
def Takes (R : SetOfRules) (st : Status) (e : Expr) (r : Str) (ns : List Node) : Prop :=
  ∃ st', runExpr R st e = .ok (st', ns) ∧ st'.itParsing = r

theorem atom_takes {R : SetOfRules} {st : Status} {a : Atom} {r : Str} {ns : List Node} :
    Takes R st (.simple a) r ns ↔ ∃ st' t, parseAtom st a = .ok (st', t) ∧ st'.itParsing = r ∧ ns = [t] := by
  unfold Takes
  rw [runExpr_simple, parseAtomAsExpr]
  cases h : parseAtom st a with
  | ok x =>
    obtain ⟨st1, t⟩ := x
    simp only [Out.ok.injEq, Prod.mk.injEq]
    constructor
    · rintro ⟨st', ⟨rfl, rfl⟩, h⟩; exact ⟨_, t, ⟨rfl, rfl⟩, h, rfl⟩
    · rintro ⟨st', t', ⟨rfl, rfl⟩, h, rfl⟩; exact ⟨_, ⟨rfl, rfl⟩, h⟩
  | _ => simp

/-- **C36**: a class matches exactly one character, which is one of those listed or lies in one of the
ranges, and yields that character. -/
theorem C36_class {R : SetOfRules} {st : Status} {cs : Str} {rs : List (Char × Char)} {r : Str} {ns : List Node} :
    Takes R st (.simple (.mtch cs rs)) r ns ↔
      ∃ c, st.itParsing = c :: r ∧ (c ∈ cs ∨ ∃ p ∈ rs, p.1.toNat ≤ c.toNat ∧ c.toNat ≤ p.2.toNat) ∧
        ns = [.val [c]] := by
  have hcl : ∀ c, matchChar cs rs c = true ↔ (c ∈ cs ∨ ∃ p ∈ rs, p.1.toNat ≤ c.toNat ∧ c.toNat ≤ p.2.toNat) :=
    matchChar_iff cs rs
  simp only [atom_takes, parseAtom, parseMatch]
  cases hg : getChar st with
  | error st1 =>
    simp only [raise_ok, false_and, exists_false, false_iff]
    rintro ⟨c, h, _⟩
    rw [getChar_error_nil hg] at h
    cases h
  | ok x =>
    obtain ⟨st1, c⟩ := x
    have hc : st.itParsing = c :: st1.itParsing := (getChar_ok hg).1
    simp only
    by_cases hm : matchChar cs rs c = true
    · simp only [hm, if_true, Out.ok.injEq, Prod.mk.injEq]
      constructor
      · rintro ⟨_, t, ⟨rfl, rfl⟩, rfl, rfl⟩
        exact ⟨c, hc, (hcl c).1 hm, rfl⟩
      · rintro ⟨c', h, _, rfl⟩
        rw [hc] at h
        cases h
        exact ⟨_, _, ⟨rfl, rfl⟩, rfl, rfl⟩
    · simp only [hm, if_false, raise_ok, false_and, exists_false, false_iff, Bool.false_eq_true]
      rintro ⟨c', h, h2, _⟩
      rw [hc] at h
      cases h
      exact hm ((hcl c).2 h2)

/-- **C36**: otherwise (on ASCII text) the class fails, with an ordinary error that names the class. -/
theorem C36_class_fails {R : SetOfRules} {s : Str} {st : Status} {cs : Str} {rs : List (Char × Char)}
    (ha : Ascii s) (hI : Inv s st)
    (h : ∀ c r, st.itParsing = c :: r → c ∉ cs ∧ ∀ p ∈ rs, ¬ (p.1.toNat ≤ c.toNat ∧ c.toNat ≤ p.2.toNat)) :
    ∃ er, runExpr R st (.simple (.mtch cs rs)) = .err er ∧ er.descr = .mtch cs rs ∧ er.priority = .normal := by
  have key : ∀ st1, Inv s st1 → ∃ er,
      (raise st1 (.mtch cs rs) .normal : Out Error (Status × Node)) = .err er ∧ er.descr = .mtch cs rs ∧
        er.priority = .normal := by
    intro st1 h1
    obtain ⟨er, h2, h3⟩ := raise_ascii (α := Status × Node) (d := .mtch cs rs) (p := .normal) ha h1
    unfold fromStatus at h3
    obtain ⟨lb, _, h4⟩ := Option.map_eq_some_iff.mp h3
    subst h4
    exact ⟨_, h2, rfl, rfl⟩
  rw [runExpr_simple, parseAtomAsExpr]
  simp only [parseAtom, parseMatch]
  cases hg : getChar st with
  | error st1 =>
    obtain ⟨er, h1, h2⟩ := key st (hI)
    have : st1 = st := by
      unfold getChar at hg
      split at hg
      · cases hg; rfl
      · cases hg
    subst this
    simp only [h1]
    exact ⟨er, rfl, h2⟩
  | ok x =>
    obtain ⟨st1, c⟩ := x
    obtain ⟨er, h1, h2⟩ := key st1 (inv_get hI hg)
    have hn : matchChar cs rs c ≠ true := by
      rw [Ne, matchChar_iff]
      obtain ⟨h3, h4⟩ := h c _ (getChar_ok hg).1
      rintro (h5 | ⟨p, hp, h5⟩)
      · exact h3 h5
      · exact h4 p hp h5
    simp only [hn, if_false, h1, Bool.false_eq_true]
    exact ⟨er, rfl, h2⟩

/-- **C36**: dot matches any single character. -/
theorem C36_dot {R : SetOfRules} {st : Status} {r : Str} {ns : List Node} :
    Takes R st (.simple .dot) r ns ↔ ∃ c, st.itParsing = c :: r ∧ ns = [.val [c]] := by
  simp only [atom_takes, parseAtom, parseDot]
  cases hg : getChar st with
  | error st1 =>
    simp only [raise_ok, false_and, exists_false, false_iff]
    rintro ⟨c, h, _⟩
    rw [getChar_error_nil hg] at h
    cases h
  | ok x =>
    obtain ⟨st1, c⟩ := x
    have hc : st.itParsing = c :: st1.itParsing := (getChar_ok hg).1
    simp only [Out.ok.injEq, Prod.mk.injEq]
    constructor
    · rintro ⟨_, t, ⟨rfl, rfl⟩, rfl, rfl⟩
      exact ⟨c, hc, rfl⟩
    · rintro ⟨c', h, rfl⟩
      rw [hc] at h
      cases h
      exact ⟨_, _, ⟨rfl, rfl⟩, rfl, rfl⟩

/-- **C36**: the EOF atom matches only at the end of the text (and yields the text "EOF"). -/
theorem C36_eof {R : SetOfRules} {st : Status} {r : Str} {ns : List Node} :
    Takes R st (.simple .eof) r ns ↔ st.itParsing = [] ∧ r = [] ∧ ns = [.val c!"EOF"] := by
  simp only [atom_takes, parseAtom, parseEof]
  cases hg : getChar st with
  | error st1 =>
    have h1 := getChar_error_nil hg
    have : st1 = st := by
      unfold getChar at hg
      split at hg
      · cases hg; rfl
      · cases hg
    subst this
    simp only [Out.ok.injEq, Prod.mk.injEq]
    constructor
    · rintro ⟨_, t, ⟨rfl, rfl⟩, rfl, rfl⟩
      exact ⟨h1, h1, rfl⟩
    · rintro ⟨_, rfl, rfl⟩
      exact ⟨_, _, ⟨rfl, rfl⟩, h1, rfl⟩
  | ok x =>
    obtain ⟨st1, c⟩ := x
    have hc : st.itParsing = c :: st1.itParsing := (getChar_ok hg).1
    simp only [raise_ok, false_and, exists_false, false_iff]
    rw [hc]
    rintro ⟨h, _⟩
    cases h

/-- a literal that is there is read -/
theorem literalLoop_complete (lit : Str) : ∀ (l : Str) (st : Status) (r : Str), st.itParsing = l ++ r →
    ∃ st', parseLiteralLoop lit st l = .ok st' ∧ st'.itParsing = r := by
  intro l
  induction l with
  | nil => intro st r h; exact ⟨st, rfl, h⟩
  | cons c l ih =>
    intro st r h
    have hg : ∃ st1, parseChar st c = .ok st1 ∧ st1.itParsing = l ++ r := by
      unfold parseChar getChar
      rw [h]
      exact ⟨_, if_pos rfl, rfl⟩
    obtain ⟨st1, h1, h2⟩ := hg
    obtain ⟨st2, h3, h4⟩ := ih st1 r h2
    exact ⟨st2, by rw [parseLiteralLoop, h1]; exact h3, h4⟩

/-- **C36**: a literal matches only itself. -/
theorem C36_literal {R : SetOfRules} {st : Status} {l r : Str} {ns : List Node} :
    Takes R st (.simple (.literal l)) r ns ↔ st.itParsing = l ++ r ∧ ns = [.val l] := by
  simp only [atom_takes, parseAtom, parseLiteral]
  constructor
  · rintro ⟨st', t, h1, h2, h3⟩
    have h4 := literalLoop_sound l l st
    cases h5 : parseLiteralLoop l st l with
    | ok st1 =>
      rw [h5] at h1 h4
      simp only [Out.ok.injEq, Prod.mk.injEq] at h1 h4
      obtain ⟨rfl, rfl⟩ := h1
      exact ⟨by rw [h4, h2], h3⟩
    | _ => rw [h5] at h1; cases h1
  · rintro ⟨h1, rfl⟩
    obtain ⟨st', h2, h3⟩ := literalLoop_complete l l st r h1
    exact ⟨st', _, by rw [h2], h3, rfl⟩

/-- **C36**: `error(...)` never matches. -/
theorem C36_error {R : SetOfRules} {st : Status} {m r : Str} {ns : List Node} :
    ¬ Takes R st (.simple (.error m)) r ns := by
  simp only [atom_takes, parseAtom, parseError, raise_ok, false_and, exists_false, not_false_eq_true]

/-- **C36** at the level of `parse`: a grammar that is just a class accepts exactly the texts of one
character of the class. -/
theorem C36_parse {cs : Str} {rs : List (Char × Char)} {s : Str} (ha : Ascii s) :
    (∃ t, parse s ⟨[(c!"main", .simple (.mtch cs rs))]⟩ = .ok t) ↔
      ∃ c, s = [c] ∧ (c ∈ cs ∨ ∃ p ∈ rs, p.1.toNat ≤ c.toNat ∧ c.toNat ≤ p.2.toNat) := by
  have hb : RulesBoundsOK ⟨[(c!"main", .simple (.mtch cs rs))]⟩ := by
    intro ne h
    simp only [List.mem_singleton] at h
    subst h
    exact .simple _
  constructor
  · rintro ⟨t, h⟩
    have h1 := (C01_ok_means_everything_consumed h).2
    rw [denotes_of_boundsOK hb] at h1
    cases h1 with
    | call_ok hg h2 =>
      cases hg
      cases h2 with
      | class_ok _ _ c _ hc => exact ⟨c, rfl, hc⟩
  · rintro ⟨c, rfl, hc⟩
    have h1 : Peg (denotes ⟨[(c!"main", .simple (.mtch cs rs))]⟩) (.ruleName c!"main") [c]
        (.ok [] [.rule c!"main" [.val [c]]]) := by
      rw [denotes_of_boundsOK hb]
      exact .call_ok rfl (.class_ok _ _ _ _ hc)
    exact ⟨_, (C02_parse_ok_iff_peg_any_bounds _ _ ha).2 h1⟩

example : Takes ⟨[]⟩ (Status.init c!"mx") (.simple (.mtch c!"_" [('a', 'z')])) c!"x" [.val c!"m"] :=
  C36_class.2 ⟨'m', rfl, Or.inr ⟨('a', 'z'), by simp, by decide, by decide⟩, rfl⟩

example : ¬ Takes ⟨[]⟩ (Status.init c!"{x") (.simple (.mtch c!"_" [('a', 'z')])) c!"x" [.val c!"{"] := by
  rw [C36_class]
  rintro ⟨c, h, h2, _⟩
  cases h
  revert h2
  decide

end DP
