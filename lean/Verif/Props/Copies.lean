import Verif.Proofs.CopiesLow
import Verif.Props.CalcCost
import Verif.Props.PegCost

/-!
# C82: the text copied into errors

An error holds a copy of the line where it was raised, and `parse` raises one for every attempt that fails: most of them are
given up at once. The status remembers one error, and every alternative and every round of a repetition gets a copy of the
status. So each call can copy a line.
-/

namespace DP
open Spec Spec.Readme Spec.Syntax

/-- **C82**: a parse that returns has copied a definite number of characters; and only such a parse has. -/
theorem C82_copied (s : Str) (R : SetOfRules) :
    (parse s R ≠ .diverge ↔ ∃ c, Copied s R c) ∧ (∀ c c', Copied s R c → Copied s R c' → c = c') := by
  refine ⟨?_, ?_⟩
  · rw [Ne, parse_diverge_iff]
    push Not
    exact ⟨fun ⟨f, h⟩ => ⟨_, f, h, rfl⟩, fun ⟨_, f, h, _⟩ => ⟨f, h⟩⟩
  · rintro c c' ⟨f, h1, h2⟩ ⟨g, h3, h4⟩
    rw [← h2, ← h4]
    unfold copiedF
    rcases Nat.le_total f g with h | h
    · rw [copies_mono R h h1]
    · rw [copies_mono R h h3]

/-- The counting does not disturb: beside the number stands what the parser returns. -/
theorem C82_same_parser (R : SetOfRules) (fuel : Nat) (s : Str) :
    (copiesRuleName R fuel (.init s) c!"main").1 = parseMain R fuel (.init s) := (copies_erase R fuel).1 _ _

theorem copied_split {s R c} (h : Copied s R c) : ∃ f, parseMain R f (.init s) ≠ .diverge ∧
    (copiesRuleName R f (.init s) c!"main").2 ≤ c ∧
    ∀ S : Nat → Prop, S 0 → (∀ e, ErrAt s e → S e.copied) →
      ∃ k, S k ∧ c = (copiesRuleName R f (.init s) c!"main").2 + k := by
  obtain ⟨f, h1, rfl⟩ := h
  have hG := (good_all (R := R) s f).1 (.init s) c!"main" (invP_init s)
  have he := (copies_erase R f).1 (.init s) c!"main"
  refine ⟨f, h1, ?_⟩
  unfold copiedF
  generalize copiesRuleName R f (.init s) c!"main" = y at he ⊢
  obtain ⟨y, c⟩ := y
  simp only at he
  subst he
  cases hy : parseRuleName R f (.init s) c!"main" with
  | ok x =>
    rw [hy] at hG
    have hI : InvP s x.1 := hG
    simp only
    have hst : ∀ S : Nat → Prop, S 0 → (∀ e, ErrAt s e → S e.copied) → S x.1.copied := by
      intro S h0 hS
      unfold Status.copied
      cases hp : x.1.potentialError with
      | none => exact h0
      | some e => exact hS e (hI.pot e hp)
    split
    · exact ⟨Nat.le_add_right _ _, fun S h0 hS => ⟨_, hst S h0 hS, rfl⟩⟩
    · split
      · exact ⟨Nat.le_add_right _ _, fun S h0 hS => ⟨_, hst S h0 hS, rfl⟩⟩
      · refine ⟨Nat.le_add_right _ _, fun S h0 hS => ⟨_, ?_, rfl⟩⟩
        unfold raise
        cases hf : fromStatus x.1 .notConsumed .normal with
        | none => exact h0
        | some e => exact hS e (inv_err hI.toInv hf)
  | err e => exact ⟨Nat.le_refl _, fun S h0 _ => ⟨0, h0, rfl⟩⟩
  | panic => exact ⟨Nat.le_refl _, fun S h0 _ => ⟨0, h0, rfl⟩⟩
  | diverge => exact absurd hy h1

/-- **C82**: at most three lines for each call of `parse_expr`, and two more. -/
theorem C82_bound {s : Str} {R : SetOfRules} {L c : Nat} {m : Meter}
    (hL : ∀ pre l post, s = pre ++ l ++ post → '\n' ∉ l → l.length ≤ L) (hm : Uses s R m) (hc : Copied s R c) :
    c ≤ L * (3 * m.calls + 2) := by
  obtain ⟨f, h1, _, h2⟩ := copied_split hc
  obtain ⟨g, h3, rfl⟩ := hm
  obtain ⟨k, h4, rfl⟩ := h2 (· ≤ L) (Nat.zero_le _) fun e he => errAt_copied hL he
  have h5 : (meterRuleName R f (.init s) c!"main").2 = used g s R := by
    unfold used
    rcases Nat.le_total f g with h | h
    · rw [meter_mono R h h1]
    · rw [meter_mono R h h3]
  have h6 := (copies_bound (R := R) hL f).1 (.init s) c!"main" (invP_init s) (by rw [(copies_erase R f).1]; exact h1)
  rw [h5] at h6
  rw [Nat.mul_add, ← Nat.mul_assoc, Nat.mul_comm L 3]
  omega

/-- **C82**: so reading an ASCII PEG text whose lines are not longer than `L` copies at most `K L (n + 1)²` characters. -/
theorem C82_peg : ∃ K, ∀ s L c, Ascii s → (∀ pre l post, s = pre ++ l ++ post → '\n' ∉ l → l.length ≤ L) →
    Copied s PegRules.parsePeg c → c ≤ K * L * (s.length + 1) ^ 2 := by
  obtain ⟨K, hK⟩ := C71_quadratic
  refine ⟨3 * K + 2, fun s L c ha hL hc => ?_⟩
  obtain ⟨m, hm, h⟩ := hK s ha
  have h1 := C82_bound hL hm hc
  have h2 : 1 ≤ (s.length + 1) ^ 2 := Nat.one_le_pow _ _ (by omega)
  generalize (s.length + 1) ^ 2 = q at h h2
  have h3 : 3 * m.calls + 2 ≤ (3 * K + 2) * q := by rw [Nat.add_mul, Nat.mul_assoc]; omega
  calc c ≤ L * (3 * m.calls + 2) := h1
    _ ≤ L * ((3 * K + 2) * q) := Nat.mul_le_mul_left _ h3
    _ = (3 * K + 2) * L * q := by rw [← Nat.mul_assoc, Nat.mul_comm L]

/-- **C82**: on an ASCII text of one line every copy is one of the whole text. -/
theorem C82_whole {s : Str} {R : SetOfRules} {c : Nat} (ha : Ascii s) (ho : '\n' ∉ s ∧ '\r' ∉ s) (hc : Copied s R c) :
    s.length ∣ c := by
  have hO : OneLine s := fun d hd => ⟨fun h => ho.1 (h ▸ hd), fun h => ho.2 (h ▸ hd)⟩
  obtain ⟨f, _, _, h2⟩ := copied_split hc
  have hS : ∀ e, ErrAt s e → s.length ∣ e.copied := fun e he => by rw [errAt_full ha hO he]; exact Nat.dvd_refl _
  obtain ⟨k, h4, rfl⟩ := h2 (s.length ∣ ·) (Nat.dvd_zero _) hS
  exact Nat.dvd_add ((copies_closed (R := R) (s.length ∣ ·) (Nat.dvd_zero _) Nat.dvd_add hS f).1 _ _ (invP_init s)) h4

theorem copied_low {s R c w} (h : Low R (.init s) (.ruleName c!"main") w) (hc : Copied s R c) : w ≤ c := by
  obtain ⟨f, h1, h2, _⟩ := copied_split hc
  refine Nat.le_trans ?_ h2
  have hd : parseExpr R (f + 1) (.init s) (.ruleName c!"main") ≠ .diverge := by
    rw [parseExpr]
    intro h
    cases hy : parseRuleName R f (.init s) c!"main" with
    | diverge => exact h1 hy
    | _ => rw [hy] at h; cases h
  have := h (f + 1) hd
  rw [copiesExpr] at this
  generalize copiesRuleName R f (.init s) c!"main" = y at this ⊢
  obtain ⟨y, c⟩ := y
  rcases y with x | x | _ | _ <;> exact this

/-- **C82**: the calculator of README.md copies at least `n * n` characters to read a number of `n` digits, although its
calls are at most linearly many; and at most quadratically many. -/
theorem C82_number : ∃ R, rulesFromPeg Readme.calculator = .ok R ∧ ∀ s, Digits s →
    (∃ t, parse s R = .ok t) ∧ (∃ m, Uses s R m ∧ m.calls ≤ 24 * s.length + 31) ∧
    ∃ c, Copied s R c ∧ s.length * s.length ≤ c ∧ c ≤ s.length * (72 * s.length + 95) := by
  obtain ⟨R, hR, h⟩ := C60_calculator
  obtain ⟨R', hR', h'⟩ := C81_linear
  cases hR.symm.trans hR'
  cases hR.symm.trans calculator_rules
  refine ⟨_, calculator_rules, fun s hs => ?_⟩
  have hd : ∀ c ∈ s, c.toNat < 128 ∧ c ≠ '\n' ∧ c ≠ '\r' := by
    intro c hc
    have := hs.2 c hc
    unfold Digit at this
    refine ⟨?_, ?_, ?_⟩
    · exact Nat.lt_of_le_of_lt (show c.toNat ≤ 57 from this.2) (by decide)
    · rintro rfl; exact absurd this (by decide)
    · rintro rfl; exact absurd this (by decide)
  have ha : Ascii s := fun c hc => (hd c hc).1
  have hp := (h s _).2 ⟨0, s, _, 0, by simp [spaces], by
    have := Addition.mk (.mk (.numeral (.whole hs)) .nil) .nil
    simpa using this, rfl⟩
  obtain ⟨m, hm, hm'⟩ := h' s _ hp
  obtain ⟨c, hc⟩ := (C82_copied s calculatorRules).1.mp (by rw [hp]; simp)
  refine ⟨⟨_, hp⟩, ⟨m, hm, hm'⟩, c, hc, copied_low (low_calc ha (fun c hc => (hd c hc).2) hs) hc, ?_⟩
  refine Nat.le_trans (C82_bound (L := s.length) ?_ hm hc) (Nat.mul_le_mul_left _ (by omega))
  intro pre l post h1 _
  rw [h1]
  simp only [List.length_append]
  omega

/-! ### A choice -/

def choicesText : Str := c!"main = ('a' / 'b')*\n"

def choicesDoc : Doc := ⟨[], .one (.rule c!"main" [.sp] [.sp]
  (.one (.item (.star (.par [] (.cons (.item (.plain (.lit (.single c!"a"))) .nil) [.sp] [.sp] (.one (.item (.plain (.lit (.single c!"b"))) .nil))) [])) .nil))
  ⟨[], .lf, []⟩)⟩

def choicesRules : SetOfRules := ⟨[(c!"main", .rep (.or [.simple (.literal c!"a"), .simple (.literal c!"b")]) 0 none)]⟩

theorem choices_rules : rulesFromPeg choicesText = .ok choicesRules :=
  rules_of_doc (d := choicesDoc) (by decide +kernel) (by decide +kernel) (by decide +kernel) rfl

theorem choices_wf : WellFormed (denotes choicesRules) :=
  wf_of_check (nul := [c!"main"]) (ranks := [c!"main"]) (by decide +kernel)

/-- **C82**: `main = ('a' / 'b')*` copies at least `n * n` characters to read `n` times `b`. -/
theorem C82_choices : ∃ R, rulesFromPeg choicesText = .ok R ∧ ∀ n,
    ∃ c, Copied (List.replicate n 'b') R c ∧ n * n ≤ c := by
  refine ⟨_, choices_rules, fun n => ?_⟩
  obtain ⟨c, hc⟩ := (C82_copied (List.replicate n 'b') choicesRules).1.mp (C12_well_formed_grammars_terminate choices_wf _).1
  exact ⟨c, hc, copied_low (low_call (e := .rep (.or [.simple (.literal c!"a"), .simple (.literal c!"b")]) 0 none)
    (by decide +kernel) rfl (low_choices (invP_init _) rfl)) hc⟩

/-! ### Concretely -/

/-- `n*n + 3*n` in fact: one copy for each `b`, and at the end the errors of both alternatives, and one is remembered, and copied -/
example : Copied c!"" choicesRules 0 ∧ Copied c!"b" choicesRules 4 ∧ Copied c!"bb" choicesRules 10 ∧ Copied c!"bbbbb" choicesRules 40 :=
  ⟨⟨40, by decide +kernel, by decide +kernel⟩, ⟨40, by decide +kernel, by decide +kernel⟩, ⟨40, by decide +kernel, by decide +kernel⟩,
    ⟨40, by decide +kernel, by decide +kernel⟩⟩

/-- the same with ends of line: less -/
example : Copied c!"b\nb\nb" ⟨[(c!"main", .rep (.or [.simple (.literal c!"a"), .simple (.literal c!"b"), .simple (.literal c!"\n")]) 0 none)]⟩ 11 :=
  ⟨40, by decide +kernel, by decide +kernel⟩

/-- the calculator on numbers of one, two and four digits -/
example : Copied c!"1" calculatorRules 31 ∧ Copied c!"12" calculatorRules 64 ∧ Copied c!"1234" calculatorRules 136 :=
  ⟨⟨60, by decide +kernel, by decide +kernel⟩, ⟨60, by decide +kernel, by decide +kernel⟩, ⟨60, by decide +kernel, by decide +kernel⟩⟩

/-- `!'c'` after an error is remembered: on `b` it copies the status, and `'c'` fails; on `c` it copies the status and fails -/
example : Copied c!"b" ⟨[(c!"main", .and [.rep (.simple (.literal c!"x")) 0 none, .not (.simple (.literal c!"c")), .simple .dot])]⟩ 4 ∧
    Copied c!"c" ⟨[(c!"main", .and [.rep (.simple (.literal c!"x")) 0 none, .not (.simple (.literal c!"c")), .simple .dot])]⟩ 3 :=
  ⟨⟨40, by decide +kernel, by decide +kernel⟩, ⟨40, by decide +kernel, by decide +kernel⟩⟩

/-- a missing rule, a choice of nothing, a text that is not consumed: one error each -/
example : Copied c!"abc" ⟨[(c!"main", .ruleName c!"m")]⟩ 3 ∧ Copied c!"abc" ⟨[(c!"main", .or [])]⟩ 3 ∧
    Copied c!"abc" ⟨[(c!"main", .simple .dot)]⟩ 3 :=
  ⟨⟨40, by decide +kernel, by decide +kernel⟩, ⟨40, by decide +kernel, by decide +kernel⟩, ⟨40, by decide +kernel, by decide +kernel⟩⟩

/-- nothing fails, nothing is copied -/
example : Copied c!"ab" ⟨[(c!"main", .and [.simple (.literal c!"a"), .simple (.literal c!"b")])]⟩ 0 :=
  ⟨40, by decide +kernel, by decide +kernel⟩

/-- reading `m=.` copies 219 characters for 4 -/
example : Copied c!"m=.\n" PegRules.parsePeg 219 := ⟨200, by decide +kernel, by decide +kernel⟩

/-- it does not return: there is no number -/
example : ¬ ∃ c, Copied c!"a" ⟨[(c!"main", .ruleName c!"main")]⟩ c := by
  rw [← (C82_copied _ _).1, not_not]
  exact C13_left_recursion_diverges (by decide) (.refl _ _) rfl (.refl _ _)

end DP
