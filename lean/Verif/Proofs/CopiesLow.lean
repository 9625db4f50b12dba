/-
How many characters are copied at least: texts of one line, where every error holds the whole text.
-/
import Verif.Proofs.Copies
import Verif.Proofs.ReadmeCalc
import Verif.Props.Errors

namespace DP
open Spec Spec.Readme

/-- a text without ends of line -/
def OneLine (s : Str) : Prop := ∀ c ∈ s, c ≠ '\n' ∧ c ≠ '\r'

theorem errAt_full {s e} (ha : Ascii s) (ho : OneLine s) (h : ErrAt s e) : e.copied = s.length := by
  obtain ⟨pre, post, h1, _, h2, _, _, h3⟩ := errAt_line ha h
  have hpre : pre = [] := by
    rcases h2 with h | ⟨p, h⟩
    · exact h
    · exact absurd rfl (ho '\n' (by rw [h1, h]; simp)).1
  have hpost : post = [] := by
    rcases h3 with h | ⟨c, r, h, hc⟩
    · exact h
    · have := ho c (by rw [h1, h]; simp)
      rcases hc with rfl | rfl
      · exact absurd rfl this.1
      · exact absurd rfl this.2
  rw [hpre, hpost] at h1
  unfold Error.copied
  rw [← List.length_append]
  exact congrArg List.length (by simpa using h1.symm)

/-- whatever returns has copied at least `w` characters -/
def Low (R : SetOfRules) (st : Status) (e : Expr) (w : Nat) : Prop :=
  ∀ f, parseExpr R f st e ≠ .diverge → w ≤ (copiesExpr R f st e).2

/-- the result, when there is one, is as said -/
def Yields (R : SetOfRules) (st : Status) (e : Expr) (P : Out Error (Status × List Node) → Prop) : Prop :=
  ∀ f, parseExpr R f st e ≠ .diverge → P (parseExpr R f st e)

section
variable {R : SetOfRules} {st : Status} {w : Nat}

theorem parseExpr_split (R f st e) : ∃ x c, copiesExpr R f st e = (x, c) ∧ parseExpr R f st e = x :=
  ⟨_, _, rfl, ((copies_erase R f).2.1 st e).symm⟩

theorem low_call {n e} (hg : R.get n = some e) (ht : st.traceRules = false) (h : Low R st e w) : Low R st (.ruleName n) w := by
  intro f hd
  cases f with
  | zero => rw [parseExpr] at hd; exact absurd rfl hd
  | succ f =>
    cases f with
    | zero => rw [parseExpr, parseRuleName] at hd; exact absurd rfl hd
    | succ f =>
      rw [parseExpr, parseRuleName] at hd
      rw [copiesExpr, copiesRuleName]
      simp only [ht, hg, Bool.false_eq_true, if_false] at hd ⊢
      have := h f
      obtain ⟨x, c, h1, h2⟩ := parseExpr_split R f st e
      rw [h1, h2] at this
      rw [h1]
      rw [h2] at hd
      rcases x with x | x | _ | _
      · exact this (by simp)
      · exact this (by simp)
      · exact this (by simp)
      · exact absurd rfl hd

theorem lowAnd_head {e es acc} (h : Low R st e w) (f : Nat) (hd : parseAnd R f st (e :: es) acc ≠ .diverge) :
    w ≤ (copiesAnd R f st (e :: es) acc).2 := by
  cases f with
  | zero => rw [parseAnd] at hd; exact absurd rfl hd
  | succ f =>
    rw [parseAnd] at hd
    rw [copiesAnd]
    have := h f
    obtain ⟨x, c, h1, h2⟩ := parseExpr_split R f st e
    rw [h1, h2] at this
    rw [h1]
    rw [h2] at hd
    rcases x with x | x | _ | _
    · exact Nat.le_trans (this (by simp)) (Nat.le_add_right _ _)
    · exact this (by simp)
    · exact this (by simp)
    · exact absurd rfl hd

theorem low_and_head {e es} (h : Low R st e w) : Low R st (.and (e :: es)) w := by
  intro f hd
  cases f with
  | zero => rw [parseExpr] at hd; exact absurd rfl hd
  | succ f =>
    rw [parseExpr] at hd
    rw [copiesExpr]
    exact lowAnd_head h f hd

theorem low_and_second {e e' es} (h : Yields R st e fun x => ∃ st' ns, x = .ok (st', ns) ∧ Low R st' e' w) :
    Low R st (.and (e :: e' :: es)) w := by
  intro f hd
  cases f with
  | zero => rw [parseExpr] at hd; exact absurd rfl hd
  | succ f =>
    cases f with
    | zero => rw [parseExpr, parseAnd] at hd; exact absurd rfl hd
    | succ f =>
      rw [parseExpr, parseAnd] at hd
      rw [copiesExpr, copiesAnd]
      obtain ⟨x, c, h1, h2⟩ := parseExpr_split R f st e
      have hne : parseExpr R f st e ≠ .diverge := by intro h'; rw [h'] at hd; exact absurd rfl hd
      obtain ⟨st', ns, h3, h4⟩ := h f hne
      rw [h3] at h2
      subst h2
      rw [h1]
      rw [h3] at hd
      exact Nat.le_trans (lowAnd_head h4 f hd) (Nat.le_add_left _ _)

theorem lowOr_head {e es acc} (h : Low R st e w) (f : Nat) (hd : parseOr R f st (e :: es) acc ≠ .diverge) :
    st.copied + w ≤ (copiesOr R f st (e :: es) acc).2 := by
  cases f with
  | zero => rw [parseOr] at hd; exact absurd rfl hd
  | succ f =>
    rw [parseOr] at hd
    rw [copiesOr]
    have := h f
    obtain ⟨x, c, h1, h2⟩ := parseExpr_split R f st e
    rw [h1, h2] at this
    rw [h1]
    rw [h2] at hd
    rcases x with x | x | _ | _
    · have := this (by simp); simp only; omega
    · have := this (by simp)
      simp only
      split <;> simp only <;> omega
    · have := this (by simp); simp only; omega
    · exact absurd rfl hd

theorem low_or_head {e es} (h : Low R st e w) : Low R st (.or (e :: es)) w := by
  intro f hd
  cases f with
  | zero => rw [parseExpr] at hd; exact absurd rfl hd
  | succ f =>
    rw [parseExpr] at hd
    rw [copiesExpr]
    have := lowOr_head h f hd
    simp only
    omega

theorem low_or_second {e e' es v} (h1 : Low R st e v) (h2 : Yields R st e fun x => ∃ er, x = .err er ∧ er.priority ≠ .critical)
    (h3 : Low R st e' w) : Low R st (.or (e :: e' :: es)) (v + w) := by
  intro f hd
  cases f with
  | zero => rw [parseExpr] at hd; exact absurd rfl hd
  | succ f =>
    cases f with
    | zero => rw [parseExpr, parseOr] at hd; exact absurd rfl hd
    | succ f =>
      rw [parseExpr, parseOr] at hd
      rw [copiesExpr, copiesOr]
      have h4 := h1 f
      obtain ⟨x, c, h5, h6⟩ := parseExpr_split R f st e
      have hne : parseExpr R f st e ≠ .diverge := by intro h'; rw [h'] at hd; exact absurd rfl hd
      obtain ⟨er, h7, h8⟩ := h2 f hne
      rw [h5] at h4
      have h4 := h4 hne
      rw [h7] at h6
      subst h6
      rw [h5]
      rw [h7] at hd
      simp only [h8, if_false] at hd ⊢
      have := lowOr_head h3 f hd
      simp only at h4
      omega

/-- an atom that fails builds an error -/
theorem low_atom {a} (h : w ≤ built (parseAtomAsExpr st a)) : Low R st (.simple a) w := by
  intro f hd
  cases f with
  | zero => rw [parseExpr] at hd; exact absurd rfl hd
  | succ f => rw [copiesExpr]; exact h

theorem yields_atom {a P} (h : P (parseAtomAsExpr st a)) : Yields R st (.simple a) P := by
  intro f hd
  cases f with
  | zero => rw [parseExpr] at hd; exact absurd rfl hd
  | succ f => rw [parseExpr]; exact h

/-- one run that returns is enough -/
theorem yields_of {e P f x} (h : parseExpr R f st e = x) (hx : x ≠ .diverge) (hP : P x) : Yields R st e P := by
  intro g hd
  have h1 := parseExpr_mono (Nat.le_max_left f g) h hx
  have h2 := parseExpr_mono (Nat.le_max_right f g) rfl hd
  rw [← h2, h1]
  exact hP

theorem yields_and_fail {e es} (h : Yields R st e fun x => ∃ er, x = .err er ∧ er.priority ≠ .critical) :
    Yields R st (.and (e :: es)) fun x => ∃ er, x = .err er ∧ er.priority ≠ .critical := by
  intro f hd
  cases f with
  | zero => rw [parseExpr] at hd; exact absurd rfl hd
  | succ f =>
    cases f with
    | zero => rw [parseExpr, parseAnd] at hd; exact absurd rfl hd
    | succ f =>
      rw [parseExpr, parseAnd] at hd ⊢
      have hne : parseExpr R f st e ≠ .diverge := by intro h'; rw [h'] at hd; exact absurd rfl hd
      obtain ⟨er, h1, h2⟩ := h f hne
      rw [h1]
      exact ⟨er, rfl, h2⟩

end

/-- a repetition that reads the whole rest of the text, one character in each round -/
theorem low_rounds {R : SetOfRules} {e : Expr} {mn : Nat} {w : Nat} (I : Status → Prop)
    (hw : ∀ st, I st → w ≤ st.copied ∨ Low R st e w)
    (hs : ∀ st, I st → st.itParsing ≠ [] → Yields R st e fun x => ∃ st' ns, x = .ok (st', ns) ∧ I st' ∧
      st.itParsing.length = st'.itParsing.length + 1) :
    ∀ f st k acc, I st → parseRepeat R f e mn none st k acc ≠ .diverge →
      st.itParsing.length * w ≤ (copiesRepeat R f e mn none st k acc).2 := by
  intro f
  induction f with
  | zero => intro st k acc _ hd; rw [parseRepeat] at hd; exact absurd rfl hd
  | succ f ih =>
    intro st k acc hI hd
    by_cases hn : st.itParsing = []
    · rw [hn]; simp
    rw [parseRepeat] at hd
    rw [copiesRepeat]
    obtain ⟨x, c, h5, h6⟩ := parseExpr_split R f st e
    have hne : parseExpr R f st e ≠ .diverge := by intro h'; rw [h'] at hd; exact absurd rfl hd
    obtain ⟨st', ns, h7, h8, h9⟩ := hs st hI hn f hne
    have hc : w ≤ st.copied + c := by
      rcases hw st hI with h | h
      · omega
      · have := h f hne; rw [h5] at this; simp only at this; omega
    rw [h7] at h6
    subst h6
    rw [h5]
    rw [h7] at hd
    simp only [touchMaxBound, Bool.false_eq_true, if_false] at hd ⊢
    have := ih st' (k + 1) (acc ++ ns) h8 hd
    rw [h9, Nat.succ_mul]
    omega

theorem low_rep {R : SetOfRules} {e : Expr} {mn : Nat} {w : Nat} {st : Status} (I : Status → Prop) (hI : I st)
    (hw : ∀ st, I st → w ≤ st.copied ∨ Low R st e w)
    (hs : ∀ st, I st → st.itParsing ≠ [] → Yields R st e fun x => ∃ st' ns, x = .ok (st', ns) ∧ I st' ∧
      st.itParsing.length = st'.itParsing.length + 1) :
    Low R st (.rep e mn none) (st.itParsing.length * w) := by
  intro f hd
  cases f with
  | zero => rw [parseExpr] at hd; exact absurd rfl hd
  | succ f =>
    rw [parseExpr] at hd
    rw [copiesExpr]
    exact low_rounds I hw hs f st 0 [] hI hd

/-! ### Atoms -/

theorem getChar_cons {st : Status} {c r} (h : st.itParsing = c :: r) : ∃ st', getChar st = .ok (st', c) ∧ st'.itParsing = r := by
  unfold getChar
  rw [h]
  exact ⟨_, rfl, rfl⟩

theorem raise_full {α : Type} {s st d} (ha : Ascii s) (ho : OneLine s) (h : Inv s st) :
    ∃ er, (raise st d .normal : Out Error α) = .err er ∧ er.priority ≠ .critical ∧ er.copied = s.length := by
  obtain ⟨er, he⟩ := fromStatus_ascii ha h d .normal
  refine ⟨er, by unfold raise; rw [he], ?_, errAt_full ha ho (inv_err h he)⟩
  unfold fromStatus at he
  rw [Option.map_eq_some_iff] at he
  obtain ⟨_, _, rfl⟩ := he
  simp

theorem atom_other {s st} {d c : Char} {r} (ha : Ascii s) (ho : OneLine s) (h : Inv s st) (hi : st.itParsing = c :: r) (hc : d ≠ c) :
    ∃ er, parseAtomAsExpr st (.literal [d]) = .err er ∧ er.priority ≠ .critical ∧ er.copied = s.length := by
  obtain ⟨st', hg, _⟩ := getChar_cons hi
  obtain ⟨er, h1, h2⟩ := raise_full (α := Status) (d := .literal [d]) ha ho (inv_get h hg)
  refine ⟨er, ?_, h2⟩
  simp only [parseAtomAsExpr, parseAtom, parseLiteral, parseLiteralLoop, parseChar, hg, hc, if_false, h1]

theorem atom_same {s st} {d : Char} {r} (h : InvP s st) (hi : st.itParsing = d :: r) :
    ∃ st' ns, parseAtomAsExpr st (.literal [d]) = .ok (st', ns) ∧ InvP s st' ∧ st'.itParsing = r ∧
      st'.potentialError = st.potentialError := by
  obtain ⟨st', hg, hr⟩ := getChar_cons hi
  refine ⟨st', [.val [d]], ?_, (preserved_invP ⟨[]⟩ s).get h hg, hr, (getChar_ok hg).2.2.1⟩
  simp only [parseAtomAsExpr, parseAtom, parseLiteral, parseLiteralLoop, parseChar, hg, if_true]

theorem atom_class {s st} {cs rs} {d : Char} {r} (h : InvP s st) (hi : st.itParsing = d :: r) (hm : matchChar cs rs d = true) :
    ∃ st' ns, parseAtomAsExpr st (.mtch cs rs) = .ok (st', ns) ∧ InvP s st' ∧ st'.itParsing = r ∧
      st'.potentialError = st.potentialError := by
  obtain ⟨st', hg, hr⟩ := getChar_cons hi
  refine ⟨st', [.val [d]], ?_, (preserved_invP ⟨[]⟩ s).get h hg, hr, (getChar_ok hg).2.2.1⟩
  simp only [parseAtomAsExpr, parseAtom, parseMatch, hg, hm, if_true]

/-! ### A choice under a repetition -/

theorem low_choices {R : SetOfRules} {n mn : Nat} {st : Status} (h : InvP (List.replicate n 'b') st)
    (hb : st.itParsing = List.replicate n 'b') :
    Low R st (.rep (.or [.simple (.literal c!"a"), .simple (.literal c!"b")]) mn none) (n * n) := by
  have ha : Ascii (List.replicate n 'b') := by intro c hc; rw [List.eq_of_mem_replicate hc]; decide
  have ho : OneLine (List.replicate n 'b') := by intro c hc; rw [List.eq_of_mem_replicate hc]; decide
  have := low_rep (R := R) (e := .or [.simple (.literal c!"a"), .simple (.literal c!"b")]) (mn := mn) (w := n) (st := st)
    (fun st => InvP (List.replicate n 'b') st ∧ ∃ k, st.itParsing = List.replicate k 'b') ⟨h, n, hb⟩ ?_ ?_
  · rwa [hb, List.length_replicate] at this
  · rintro st ⟨h, k, hk⟩
    cases k with
    | succ k =>
      obtain ⟨er, h1, h2, h3⟩ := atom_other (d := 'a') ha ho h.toInv hk (by decide)
      rw [List.length_replicate] at h3
      refine .inr (low_or_second (w := 0) (low_atom ?_) (yields_atom ⟨er, h1, h2⟩) fun _ _ => Nat.zero_le _)
      rw [h1]
      exact Nat.le_of_eq h3.symm
    | zero =>
      obtain ⟨er, h1, h2, h3⟩ := raise_full (α := Status) (d := .literal c!"a") ha ho h.toInv
      rw [List.length_replicate] at h3
      refine .inr (low_or_head (low_atom ?_))
      have hg : getChar st = .error st := by unfold getChar; rw [hk]; rfl
      have : parseAtomAsExpr st (.literal c!"a") = .err er := by
        simp only [parseAtomAsExpr, parseAtom, parseLiteral, parseLiteralLoop, parseChar, hg, h1]
      rw [this]
      exact Nat.le_of_eq h3.symm
  · rintro st ⟨h, k, hk⟩ hne
    cases k with
    | zero => exact absurd hk hne
    | succ k =>
      obtain ⟨er, h1, h2, h3⟩ := atom_other (d := 'a') ha ho h.toInv hk (by decide)
      obtain ⟨st', ns, h4, h5, h6, h7⟩ := atom_same (d := 'b') h hk
      refine yields_of (f := 4) (x := .ok (st', ns)) ?_ (by simp) ⟨st', ns, rfl, ⟨h5, k, h6⟩, by rw [hk, h6]; simp⟩
      rw [parseExpr, parseOr, parseExpr, h1]
      simp only [h2, if_false]
      rw [parseOr, parseExpr, h4]

/-! ### The calculator -/

section
variable {s : Str} {st : Status}

theorem low_digits {R : SetOfRules} {mn w : Nat} (h : InvP s st) (hd : ∀ c ∈ st.itParsing, Digit c) (hc : w ≤ st.copied) :
    Low R st (.rep calcDigit mn none) (st.itParsing.length * w) := by
  refine low_rep (fun st => InvP s st ∧ (∀ c ∈ st.itParsing, Digit c) ∧ w ≤ st.copied) ⟨h, hd, hc⟩ (fun st h => .inl h.2.2) ?_
  rintro st ⟨h, hd, hc⟩ hne
  cases hi : st.itParsing with
  | nil => exact absurd hi hne
  | cons c r =>
    obtain ⟨st', ns, h1, h2, h3, h4⟩ := atom_class (cs := c!"") (rs := [('0', '9')]) h hi
      (by have := hd c (by rw [hi]; simp); simpa [matchChar, Digit] using this)
    refine yields_atom ⟨st', ns, h1, ⟨h2, ?_, ?_⟩, by rw [h3, List.length_cons]⟩
    · intro c' hc'; exact hd c' (by rw [hi, List.mem_cons]; exact .inr (h3 ▸ hc'))
    · unfold Status.copied at hc ⊢; rw [h4]; exact hc

/-- the spaces of a text that starts with another character: an error is remembered -/
theorem yields_no_space (ha : Ascii s) (ho : OneLine s) (h : InvP s st) (ht : st.traceRules = false) {c r} (hi : st.itParsing = c :: r)
    (hc : ' ' ≠ c) {P} (hP : ∀ er ns, er.copied = s.length → InvP s (st.setPotentialError er) → P (.ok (st.setPotentialError er, ns))) :
    Yields calculatorRules st (.ruleName c!"_") P := by
  obtain ⟨er, h1, h2, h3⟩ := atom_other ha ho h.toInv hi hc
  have hI : InvP s (st.setPotentialError er) := by
    have := (good_all (R := calculatorRules) s 1).2 st (.simple (.literal c!" ")) h
    rw [parseExpr, h1] at this
    exact (preserved_invP calculatorRules s).pot h this h2
  refine yields_of (f := 5) (x := .ok (st.setPotentialError er, [.rule c!"_" []])) ?_ (by simp) (hP er _ h3 hI)
  rw [parseExpr, parseRuleName]
  simp only [ht, Bool.false_eq_true, if_false]
  rw [show SetOfRules.get calculatorRules c!"_" = some (.rep (.simple (.literal c!" ")) 0 none) from by decide +kernel]
  simp only
  rw [parseExpr, parseRepeat, parseExpr, h1]
  simp only [bigMinBound, ge_iff_le, Nat.zero_le, decide_true, if_true, h2, if_false]

theorem low_calc (ha : Ascii s) (ho : OneLine s) (hs : Digits s) : Low calculatorRules (Status.init s) (.ruleName c!"main") (s.length * s.length) := by
  obtain ⟨c, r, hcr⟩ := List.exists_cons_of_ne_nil hs.1
  have hc : Digit c := hs.2 c (by rw [hcr]; simp)
  refine low_call (e := .and [.ruleName c!"_", .ruleName c!"expr", .ruleName c!"_"]) (by decide +kernel) rfl (low_and_second ?_)
  refine yields_no_space ha ho (invP_init s) rfl (c := c) (r := r) hcr ?_ ?_
  · rintro rfl; exact absurd hc (by decide)
  · intro er ns her hI
    refine ⟨_, _, rfl, ?_⟩
    generalize hst : (Status.init s).setPotentialError er = st at hI
    have ht : st.traceRules = false := by rw [← hst]; rfl
    have hi : st.itParsing = s := by rw [← hst]; rfl
    have hcp : s.length ≤ st.copied := by rw [← hst]; exact Nat.le_of_eq her.symm
    have hnum : Low calculatorRules st (.ruleName c!"item") (s.length * s.length) := by
      refine low_call (e := .ruleName c!"num") (by decide +kernel) ht (low_call (e := .and [.rep calcDigit 1 none,
        .rep (.and [.simple (.literal c!"."), .rep calcDigit 1 none]) 0 (some 1)]) (by decide +kernel) ht (low_and_head ?_))
      have := low_digits (R := calculatorRules) (mn := 1) hI (by rw [hi]; exact hs.2) hcp
      rwa [hi] at this
    obtain ⟨ep, h1, h2, _⟩ := atom_other (d := '(') ha ho hI.toInv (hi.trans hcr) (by rintro rfl; exact absurd hc (by decide))
    have hpor : Low calculatorRules st (.ruleName c!"portion_expr") (s.length * s.length) := by
      refine low_call (e := .or [.and [.simple (.literal c!"("), .ruleName c!"expr", .simple (.literal c!")")], .ruleName c!"item"])
        (by decide +kernel) ht ?_
      have := low_or_second (v := 0) (es := []) (fun _ _ => Nat.zero_le _) (yields_and_fail (es := [.ruleName c!"expr", .simple (.literal c!")")]) (yields_atom ⟨ep, h1, h2⟩)) hnum
      rwa [Nat.zero_add] at this
    refine low_call (e := .or [.and [.ruleName c!"add_t", .rep (calcStep c!"add_op" c!"add_t") 0 none], .ruleName c!"portion_expr"])
      (by decide +kernel) ht (low_or_head (low_and_head ?_))
    refine low_call (e := .and [.ruleName c!"fact_t", .rep (calcStep c!"fact_op" c!"fact_t") 0 none]) (by decide +kernel) ht (low_and_head ?_)
    exact low_call (e := .ruleName c!"portion_expr") (by decide +kernel) ht hpor

end

end DP
