/-
C111: decimal numerals and dotted addresses.
-/
import Verif.Props.Readme
import Verif.Props.Syntax
import Verif.Proofs.WfCheck
import Verif.Props.Termination
import Verif.Props.Nesting
import Mathlib.Tactic.IntervalCases

namespace DP
open Spec

/-- `[1-9]` and the like -/
def oneOf (a b : Char) : Atom := .mtch [] [(a, b)]

/-- `main = "0" / [1-9] [0-9]*` -/
def numeralRules : SetOfRules :=
  ⟨[(c!"main", .or [.simple (.literal c!"0"), .and [.simple (oneOf '1' '9'), .rep (.simple (oneOf '0' '9')) 0 none]])]⟩

/-- an alternative: some atoms, one after another -/
def atomsExpr : List Atom → Expr
  | [a] => .simple a
  | as => .and (as.map .simple)

/-- `"25" [0-5] / "2" [0-4] [0-9] / "1" [0-9] [0-9] / [1-9] [0-9] / [0-9]` -/
def octetAlts : List (List Atom) :=
  [[.literal c!"25", oneOf '0' '5'], [.literal c!"2", oneOf '0' '4', oneOf '0' '9'],
   [.literal c!"1", oneOf '0' '9', oneOf '0' '9'], [oneOf '1' '9', oneOf '0' '9'], [oneOf '0' '9']]

/-- four numbers with dots, given the alternatives for a number -/
def addressRules (alts : List (List Atom)) : SetOfRules :=
  ⟨[(c!"octet", .or (alts.map atomsExpr)),
    (c!"main", .and [.ruleName c!"octet", .simple (.literal c!"."), .ruleName c!"octet", .simple (.literal c!"."),
      .ruleName c!"octet", .simple (.literal c!"."), .ruleName c!"octet"])]⟩

/-- four texts with dots between them -/
def dottedQuad (a b c d : Str) : Str := a ++ '.' :: (b ++ '.' :: (c ++ '.' :: d))

/-! ### Decimal digits -/

theorem digit_char {lo hi : Nat} {c : Char} (h1 : 48 + lo ≤ c.toNat) (h2 : c.toNat ≤ 48 + hi) (h : hi ≤ 9) :
    ∃ k, lo ≤ k ∧ k ≤ hi ∧ c = Nat.digitChar k := by
  refine ⟨c.toNat - 48, by omega, by omega, ?_⟩
  have hc : c = Char.ofNat c.toNat := (Char.ofNat_toNat c).symm
  generalize c.toNat = m at *
  subst hc
  have : 48 ≤ m := by omega
  have : m ≤ 57 := by omega
  interval_cases m <;> rfl

theorem toNat_digitChar {k : Nat} (h : k ≤ 9) : (Nat.digitChar k).toNat = 48 + k := by
  interval_cases k <;> rfl

/-- decimal digits, the first one not zero unless it is the only one -/
def NumeralText (s : Str) : Prop :=
  s = c!"0" ∨ ∃ c cs, s = c :: cs ∧ (49 ≤ c.toNat ∧ c.toNat ≤ 57) ∧ ∀ d ∈ cs, 48 ≤ d.toNat ∧ d.toNat ≤ 57

theorem plain_toDigits (n : Nat) : NumeralText (Nat.toDigits 10 n) := by
  induction n using Nat.strongRecOn with
  | _ n ih =>
    by_cases hn : n < 10
    · rw [Nat.toDigits_of_lt_base hn]
      by_cases h0 : n = 0
      · subst h0; exact .inl rfl
      · refine .inr ⟨_, [], rfl, ?_, by simp⟩
        have := toNat_digitChar (k := n) (by omega)
        omega
    · rw [Nat.toDigits_of_base_le (by decide) (by omega)]
      have hd := toNat_digitChar (k := n % 10) (by omega)
      rcases ih (n / 10) (by omega) with h | ⟨c, cs, h, hc, hcs⟩
      · exfalso
        have h1 : Nat.ofDigitChars 10 (Nat.toDigits 10 (n / 10)) 0 = n / 10 := Nat.ofDigitChars_ten_toDigits
        rw [h] at h1
        have h2 : Nat.ofDigitChars 10 c!"0" 0 = 0 := by decide
        omega
      · refine .inr ⟨c, cs ++ [Nat.digitChar (n % 10)], by rw [h]; rfl, hc, fun d hd' => ?_⟩
        rcases List.mem_append.1 hd' with h | h
        · exact hcs d h
        · rw [List.mem_singleton.1 h]; omega

theorem toDigits_snoc {n k : Nat} (hn : 0 < n) (hk : k ≤ 9) :
    Nat.toDigits 10 n ++ [Nat.digitChar k] = Nat.toDigits 10 (10 * n + k) := by
  rw [← Nat.toDigits_append_toDigits (by decide) hn (by omega), Nat.toDigits_of_lt_base (n := k) (by omega)]

theorem toDigits_extend : ∀ (cs : Str) {n : Nat}, 0 < n → (∀ d ∈ cs, 48 ≤ d.toNat ∧ d.toNat ≤ 57) →
    ∃ m, Nat.toDigits 10 n ++ cs = Nat.toDigits 10 m
  | [], n, _, _ => ⟨n, by simp⟩
  | d :: cs, n, hn, h => by
    have hd := h d List.mem_cons_self
    obtain ⟨k, -, hk, rfl⟩ := digit_char (c := d) (lo := 0) (hi := 9) (by omega) (by omega) (by decide)
    obtain ⟨m, hm⟩ := toDigits_extend cs (n := 10 * n + k) (by omega) fun x hx => h x (List.mem_cons_of_mem _ hx)
    exact ⟨m, by rw [← hm, ← toDigits_snoc hn hk]; simp⟩

theorem plain_iff (s : Str) : NumeralText s ↔ ∃ n, s = Nat.toDigits 10 n := by
  constructor
  · rintro (rfl | ⟨c, cs, rfl, hc, hcs⟩)
    · exact ⟨0, rfl⟩
    · obtain ⟨k, h1, h2, rfl⟩ := digit_char (c := c) (lo := 1) (hi := 9) (by omega) (by omega) (by decide)
      obtain ⟨m, hm⟩ := toDigits_extend cs (n := k) (by omega) hcs
      rw [Nat.toDigits_of_lt_base (by omega)] at hm
      exact ⟨m, hm⟩
  · rintro ⟨n, rfl⟩
    exact plain_toDigits n

theorem plain_ascii {s : Str} (h : NumeralText s) : Ascii s := by
  rcases h with rfl | ⟨c, cs, rfl, hc, hcs⟩
  · decide
  · intro d hd
    rcases List.mem_cons.1 hd with rfl | hd
    · omega
    · have := hcs d hd; omega

/-! ### Numerals -/

theorem inOneOf {a b c : Char} : InClass [] [(a, b)] c ↔ a.toNat ≤ c.toNat ∧ c.toNat ≤ b.toNat := by
  simp [InClass]

section
variable {G : Str → Option Expr}

theorem digits_run : ∀ s : Str, ∃ ds r, s = ds ++ r ∧ (∀ d ∈ ds, 48 ≤ d.toNat ∧ d.toNat ≤ 57) ∧
    (∀ c ∈ r.head?, ¬ (48 ≤ c.toNat ∧ c.toNat ≤ 57)) ∧
    Peg G (.rep (.simple (oneOf '0' '9')) 0 none) s (.ok r (ds.map fun d => .val [d]))
  | [] => ⟨[], [], rfl, by simp, by simp, .rep_stop (by simp) (.class_end _ _)⟩
  | c :: s => by
    by_cases hc : 48 ≤ c.toNat ∧ c.toNat ≤ 57
    · obtain ⟨ds, r, h1, h2, h3, h4⟩ := digits_run s
      refine ⟨c :: ds, r, by rw [h1]; rfl, ?_, h3, .rep_more (by simp) (.class_ok [] [('0', '9')] c s (inOneOf.2 hc)) h4⟩
      intro d hd
      rcases List.mem_cons.1 hd with rfl | hd
      · exact hc
      · exact h2 d hd
    · exact ⟨[], c :: s, rfl, by simp, by simpa using hc, .rep_stop (by simp) (.class_fail _ _ _ _ fun h => hc (inOneOf.1 h))⟩

end

/-- **C111**: `main = "0" / [1-9] [0-9]*` accepts exactly the decimal numerals of the natural numbers, with one value
for every digit. -/
theorem C111_numerals (s : Str) (t : Node) :
    parse s numeralRules = .ok t ↔ (∃ n, s = Nat.toDigits 10 n) ∧ t = .rule c!"main" (s.map fun c => .val [c]) := by
  rw [parse_iff, ← plain_iff]
  have hm : denotes numeralRules c!"main" =
      some (.or [.simple (.literal c!"0"), .and [.simple (oneOf '1' '9'), .rep (.simple (oneOf '0' '9')) 0 none]]) := by decide
  constructor
  · rintro ⟨_, h⟩
    cases h with
    | call_ok hG h =>
      rw [hm] at hG
      cases hG
      generalize hr : ([] : Str) = r at h
      cases h with
      | or_ok h =>
        generalize hl : Expr.simple (.literal c!"0") = e at h
        cases h <;> cases hl
        subst hr
        exact ⟨.inl rfl, rfl⟩
      | or_next _ h =>
        cases h with
        | or_next _ h => cases h
        | or_ok h =>
          cases h with
          | and_ok h1 h2 =>
            cases h2 with
            | and_ok h2 h3 =>
              cases h3
              cases h1 with
              | class_ok _ _ c _ hc =>
                obtain ⟨ds, q, hs, hd, -, hp⟩ := digits_run (G := denotes numeralRules) _
                cases peg_det h2 hp
                subst hr
                simp only [List.append_nil] at hs
                subst hs
                exact ⟨.inr ⟨c, _, rfl, inOneOf.1 hc, hd⟩, by simp⟩
  · rintro ⟨h, rfl⟩
    refine ⟨plain_ascii h, .call_ok hm ?_⟩
    rcases h with rfl | ⟨c, cs, rfl, hc, hcs⟩
    · exact .or_ok (.lit_ok c!"0" [])
    · refine .or_next (.lit_fail _ _ fun hp => ?_) (.or_ok ?_)
      · have := List.cons_prefix_cons.1 hp
        have h0 : c = '0' := this.1.symm
        subst h0
        have : ('0' : Char).toNat = 48 := rfl
        omega
      · obtain ⟨ds, r, hs, hd, hr, hp⟩ := digits_run (G := denotes numeralRules) cs
        have hr0 : r = [] := by
          cases r with
          | nil => rfl
          | cons x r => exact absurd (hcs x (by rw [hs]; simp)) (hr x rfl)
        subst hr0
        simp only [List.append_nil] at hs
        subst hs
        have := Peg.and_ok (.class_ok (G := denotes numeralRules) [] [('1', '9')] c cs (inOneOf.2 hc)) (.and_ok hp (.and_nil []))
        simpa [oneOf] using this

/-- **C111**: so every number has one text, and different numbers have different texts. -/
theorem C111_each (n : Nat) :
    parse (Nat.toDigits 10 n) numeralRules = .ok (.rule c!"main" ((Nat.toDigits 10 n).map fun c => .val [c])) :=
  (C111_numerals _ _).2 ⟨⟨n, rfl⟩, rfl⟩

theorem C111_different {m n : Nat} (h : parse (Nat.toDigits 10 m) numeralRules = parse (Nat.toDigits 10 n) numeralRules) : m = n := by
  rw [C111_each, C111_each] at h
  injection h with h
  injection h with _ h
  have h2 : Nat.toDigits 10 m = Nat.toDigits 10 n :=
    List.map_injective_iff.2 (fun a b hab => by injection hab with hab; exact (List.cons.inj hab).1) h
  rw [← Nat.ofDigitChars_ten_toDigits (n := m), h2, Nat.ofDigitChars_ten_toDigits]

/-! ### Alternatives of atoms -/

/-- what some atoms do, one after another: what is left, and the texts matched -/
def atomsRun : List Atom → Str → Option (Str × List Str)
  | [], s => some (s, [])
  | .literal l :: as, s => if l.isPrefixOf s then (atomsRun as (s.drop l.length)).map fun p => (p.1, l :: p.2) else none
  | .mtch cs rs :: as, c :: s =>
    if cs.contains c || rs.any fun r => decide (r.1.toNat ≤ c.toNat) && decide (c.toNat ≤ r.2.toNat) then
      (atomsRun as s).map fun p => (p.1, [c] :: p.2) else none
  | _, _ => none

def altsRun : List (List Atom) → Str → Option (Str × List Str)
  | [], _ => none
  | as :: alts, s => match atomsRun as s with
    | some p => some p
    | none => altsRun alts s

/-- only literals and classes -/
def PlainAtoms (as : List Atom) : Prop := ∀ a ∈ as, (∃ l, a = .literal l) ∨ ∃ cs rs, a = .mtch cs rs

def outcomeOf : Option (Str × List Str) → Outcome
  | some p => .ok p.1 (p.2.map .val)
  | none => .fail

section
variable {G : Str → Option Expr}

theorem inClass_iff (cs : Str) (rs : List (Char × Char)) (c : Char) :
    (cs.contains c || rs.any fun r => decide (r.1.toNat ≤ c.toNat) && decide (c.toNat ≤ r.2.toNat)) = true ↔ InClass cs rs c := by
  simp [InClass]

theorem atomsRun_peg : ∀ (as : List Atom) (s : Str), PlainAtoms as → Peg G (.and (as.map .simple)) s (outcomeOf (atomsRun as s))
  | [], s, _ => .and_nil s
  | a :: as, s, h => by
    have ih := fun q => atomsRun_peg as q fun x hx => h x (List.mem_cons_of_mem _ hx)
    rcases h a List.mem_cons_self with ⟨l, rfl⟩ | ⟨cs, rs, rfl⟩
    · by_cases hl : l.isPrefixOf s = true
      · obtain ⟨r, rfl⟩ := List.isPrefixOf_iff_prefix.1 hl
        simp only [atomsRun, hl, if_true, List.drop_left]
        have := ih r
        cases hq : atomsRun as r with
        | none => rw [hq] at this; exact .and_tail_fail (.lit_ok l r) this
        | some p => rw [hq] at this; exact .and_ok (.lit_ok l r) this
      · simp only [atomsRun, hl]
        exact .and_fail (.lit_fail l s fun hp => hl (List.isPrefixOf_iff_prefix.2 hp))
    · cases s with
      | nil => exact .and_fail (.class_end cs rs)
      | cons c r =>
        by_cases hc : InClass cs rs c
        · simp only [atomsRun, (inClass_iff cs rs c).2 hc, if_true]
          have := ih r
          cases hq : atomsRun as r with
          | none => rw [hq] at this; exact .and_tail_fail (.class_ok cs rs c r hc) this
          | some p => rw [hq] at this; exact .and_ok (.class_ok cs rs c r hc) this
        · have hc' := mt (inClass_iff cs rs c).1 hc
          simp only [atomsRun, hc']
          exact .and_fail (.class_fail cs rs c r hc)

theorem atomsExpr_peg (as : List Atom) (s : Str) (h : PlainAtoms as) : Peg G (atomsExpr as) s (outcomeOf (atomsRun as s)) := by
  have h' := atomsRun_peg (G := G) as s h
  match as, h' with
  | [], h' => exact h'
  | _ :: _ :: _, h' => exact h'
  | [a], h' =>
    generalize outcomeOf (atomsRun [a] s) = o at h'
    simp only [List.map] at h'
    cases h' with
    | and_ok h1 h2 => cases h2; rw [List.append_nil]; exact h1
    | and_fail h1 => exact h1
    | and_crit h1 => exact h1
    | and_tail_fail _ h2 => cases h2
    | and_tail_crit _ h2 => cases h2

theorem altsRun_peg : ∀ (alts : List (List Atom)) (s : Str), (∀ as ∈ alts, PlainAtoms as) →
    Peg G (.or (alts.map atomsExpr)) s (outcomeOf (altsRun alts s))
  | [], s, _ => .or_nil s
  | as :: alts, s, h => by
    have h1 := atomsExpr_peg (G := G) as s (h as List.mem_cons_self)
    simp only [altsRun]
    cases hq : atomsRun as s with
    | some p => rw [hq] at h1; exact .or_ok h1
    | none => rw [hq] at h1; exact .or_next h1 (altsRun_peg alts s fun x hx => h x (List.mem_cons_of_mem _ hx))

end

theorem altsRun_some : ∀ {alts : List (List Atom)} {s p}, altsRun alts s = some p → ∃ as ∈ alts, atomsRun as s = some p
  | as :: alts, s, p, h => by
    simp only [altsRun] at h
    split at h
    · rename_i q hq
      exact ⟨as, List.mem_cons_self, by rw [hq, h]⟩
    · obtain ⟨x, hx, h⟩ := altsRun_some h
      exact ⟨x, List.mem_cons_of_mem _ hx, h⟩

theorem atomsRun_lit {l as s p} (h : atomsRun (.literal l :: as) s = some p) :
    ∃ q ws, s = l ++ q ∧ atomsRun as q = some (p.1, ws) ∧ p.2 = l :: ws := by
  simp only [atomsRun] at h
  split at h
  · rename_i hl
    obtain ⟨r, rfl⟩ := List.isPrefixOf_iff_prefix.1 hl
    rw [List.drop_left] at h
    obtain ⟨x, hx, rfl⟩ := Option.map_eq_some_iff.1 h
    exact ⟨r, x.2, rfl, hx, rfl⟩
  · cases h

theorem atomsRun_one {a b as s p} (h : atomsRun (oneOf a b :: as) s = some p) :
    ∃ c q ws, s = c :: q ∧ (a.toNat ≤ c.toNat ∧ c.toNat ≤ b.toNat) ∧ atomsRun as q = some (p.1, ws) ∧ p.2 = [c] :: ws := by
  cases s with
  | nil => simp [atomsRun, oneOf] at h
  | cons c q =>
    simp only [atomsRun, oneOf] at h
    split at h
    · rename_i hc
      obtain ⟨x, hx, rfl⟩ := Option.map_eq_some_iff.1 h
      exact ⟨c, q, x.2, rfl, inOneOf.1 ((inClass_iff _ _ _).1 hc), hx, rfl⟩
    · cases h

theorem octetAlts_plain : ∀ as ∈ octetAlts, PlainAtoms as := by
  simp [octetAlts, PlainAtoms, oneOf]

/-! ### Octets -/

theorem octet_sound {s r : Str} {ws : List Str} (h : altsRun octetAlts s = some (r, ws)) :
    ∃ n < 256, s = Nat.toDigits 10 n ++ r ∧ ws.flatten = Nat.toDigits 10 n := by
  obtain ⟨as, ha, h⟩ := altsRun_some h
  simp only [octetAlts, List.mem_cons, List.not_mem_nil, or_false] at ha
  have key2 : ∀ {a b : Nat}, 0 < a → a ≤ 9 → b ≤ 9 → Nat.toDigits 10 (10 * a + b) = [Nat.digitChar a, Nat.digitChar b] := fun h1 h2 h3 => by
    rw [← toDigits_snoc h1 h3, Nat.toDigits_of_lt_base (by omega)]; rfl
  have key3 : ∀ {a b c : Nat}, 0 < a → a ≤ 9 → b ≤ 9 → c ≤ 9 →
      Nat.toDigits 10 (10 * (10 * a + b) + c) = [Nat.digitChar a, Nat.digitChar b, Nat.digitChar c] := fun h1 h2 h3 h4 => by
    rw [← toDigits_snoc (by omega) h4, key2 h1 h2 h3]; rfl
  rcases ha with rfl | rfl | rfl | rfl | rfl
  · obtain ⟨q, w1, rfl, h1, hw⟩ := atomsRun_lit h
    obtain ⟨c, q, w2, rfl, hc, h3, hw2⟩ := atomsRun_one h1
    obtain ⟨k, -, hk, rfl⟩ := digit_char (c := c) (lo := 0) (hi := 5) hc.1 hc.2 (by decide)
    cases h3; subst hw2; cases hw
    have := key3 (a := 2) (b := 5) (c := k) (by omega) (by omega) (by omega) (by omega)
    exact ⟨10 * (10 * 2 + 5) + k, by omega, by rw [this]; rfl, by rw [this]; rfl⟩
  · obtain ⟨q, w1, rfl, h1, hw⟩ := atomsRun_lit h
    obtain ⟨c, q, w2, rfl, hc, h2, hw2⟩ := atomsRun_one h1
    obtain ⟨d, q, w3, rfl, hd, h3, hw3⟩ := atomsRun_one h2
    obtain ⟨k, -, hk, rfl⟩ := digit_char (c := c) (lo := 0) (hi := 4) hc.1 hc.2 (by decide)
    obtain ⟨j, -, hj, rfl⟩ := digit_char (c := d) (lo := 0) (hi := 9) hd.1 hd.2 (by decide)
    cases h3; subst hw3; subst hw2; cases hw
    have := key3 (a := 2) (b := k) (c := j) (by omega) (by omega) (by omega) (by omega)
    exact ⟨10 * (10 * 2 + k) + j, by omega, by rw [this]; rfl, by rw [this]; rfl⟩
  · obtain ⟨q, w1, rfl, h1, hw⟩ := atomsRun_lit h
    obtain ⟨c, q, w2, rfl, hc, h2, hw2⟩ := atomsRun_one h1
    obtain ⟨d, q, w3, rfl, hd, h3, hw3⟩ := atomsRun_one h2
    obtain ⟨k, -, hk, rfl⟩ := digit_char (c := c) (lo := 0) (hi := 9) hc.1 hc.2 (by decide)
    obtain ⟨j, -, hj, rfl⟩ := digit_char (c := d) (lo := 0) (hi := 9) hd.1 hd.2 (by decide)
    cases h3; subst hw3; subst hw2; cases hw
    have := key3 (a := 1) (b := k) (c := j) (by omega) (by omega) (by omega) (by omega)
    exact ⟨10 * (10 * 1 + k) + j, by omega, by rw [this]; rfl, by rw [this]; rfl⟩
  · obtain ⟨c, q, w2, rfl, hc, h2, hw2⟩ := atomsRun_one h
    obtain ⟨d, q, w3, rfl, hd, h3, hw3⟩ := atomsRun_one h2
    obtain ⟨k, hk1, hk, rfl⟩ := digit_char (c := c) (lo := 1) (hi := 9) hc.1 hc.2 (by decide)
    obtain ⟨j, -, hj, rfl⟩ := digit_char (c := d) (lo := 0) (hi := 9) hd.1 hd.2 (by decide)
    cases h3; subst hw3; cases hw2
    have := key2 (a := k) (b := j) (by omega) (by omega) (by omega)
    exact ⟨10 * k + j, by omega, by rw [this]; rfl, by rw [this]; rfl⟩
  · obtain ⟨c, q, w2, rfl, hc, h3, hw2⟩ := atomsRun_one h
    obtain ⟨k, -, hk, rfl⟩ := digit_char (c := c) (lo := 0) (hi := 9) hc.1 hc.2 (by decide)
    cases h3; cases hw2
    have := Nat.toDigits_of_lt_base (b := 10) (n := k) (by omega)
    exact ⟨k, by omega, by rw [this]; rfl, by rw [this]; rfl⟩

theorem octet_dot {n : Nat} (h : n < 256) (r : Str) :
    ∃ ws, altsRun octetAlts (Nat.toDigits 10 n ++ '.' :: r) = some ('.' :: r, ws) ∧ ws.flatten = Nat.toDigits 10 n := by
  interval_cases n <;> exact ⟨_, rfl, rfl⟩

theorem octet_end {n : Nat} (h : n < 256) :
    ∃ ws, altsRun octetAlts (Nat.toDigits 10 n) = some ([], ws) ∧ ws.flatten = Nat.toDigits 10 n := by
  interval_cases n <;> exact ⟨_, rfl, rfl⟩

/-! ### Addresses -/

/-- the tree of an address, from the texts matched by each of its numbers -/
def addressTree (wa wb wc wd : List Str) : Node :=
  .rule c!"main" [.rule c!"octet" (wa.map .val), .val c!".", .rule c!"octet" (wb.map .val), .val c!".",
    .rule c!"octet" (wc.map .val), .val c!".", .rule c!"octet" (wd.map .val)]

section
variable {alts : List (List Atom)}

theorem address_main : denotes (addressRules alts) c!"main" = some (.and [.ruleName c!"octet", .simple (.literal c!"."), .ruleName c!"octet",
    .simple (.literal c!"."), .ruleName c!"octet", .simple (.literal c!"."), .ruleName c!"octet"]) := rfl

theorem effectives_simple : ∀ as : List Atom, effectives (as.map .simple) = as.map .simple
  | [] => by rw [List.map_nil, effectives]
  | a :: as => by rw [List.map_cons, effectives, effectives_simple as, effective]

theorem effective_atoms (as : List Atom) : effective (atomsExpr as) = atomsExpr as := by
  match as with
  | [] => exact (effective.eq_def _).trans (congrArg Expr.and (effectives_simple []))
  | [a] => rw [atomsExpr, effective]
  | a :: b :: as => exact (effective.eq_def _).trans (congrArg Expr.and (effectives_simple (a :: b :: as)))

theorem effectives_alts : ∀ alts : List (List Atom), effectives (alts.map atomsExpr) = alts.map atomsExpr
  | [] => by rw [List.map_nil, effectives]
  | as :: alts => by rw [List.map_cons, effectives, effectives_alts alts, effective_atoms]

theorem address_octet : denotes (addressRules alts) c!"octet" = some (.or (alts.map atomsExpr)) := by
  show some (effective (.or (alts.map atomsExpr))) = _
  rw [effective, effectives_alts]

theorem octet_call (hp : ∀ as ∈ alts, PlainAtoms as) {s r ns} :
    Peg (denotes (addressRules alts)) (.ruleName c!"octet") s (.ok r ns) ↔
      ∃ ws, altsRun alts s = some (r, ws) ∧ ns = [.rule c!"octet" (ws.map .val)] := by
  have h := altsRun_peg (G := denotes (addressRules alts)) alts s hp
  constructor
  · intro hc
    cases hc with
    | call_ok hG hb =>
      rw [address_octet] at hG
      cases hG
      have := peg_det hb h
      cases hq : altsRun alts s with
      | none => rw [hq] at this; cases this
      | some p => rw [hq] at this; cases this; exact ⟨p.2, rfl, rfl⟩
  · rintro ⟨ws, hw, rfl⟩
    rw [hw] at h
    exact .call_ok address_octet h

theorem dot_step {G : Str → Option Expr} {s r ns} :
    Peg G (.simple (.literal c!".")) s (.ok r ns) ↔ s = '.' :: r ∧ ns = [.val c!"."] := by
  constructor
  · intro h
    cases h
    exact ⟨rfl, rfl⟩
  · rintro ⟨rfl, rfl⟩
    exact .lit_ok c!"." r

theorem and_cons {G : Str → Option Expr} {e es s r ns} :
    Peg G (.and (e :: es)) s (.ok r ns) ↔ ∃ q n1 n2, Peg G e s (.ok q n1) ∧ Peg G (.and es) q (.ok r n2) ∧ ns = n1 ++ n2 := by
  constructor
  · intro h
    cases h with
    | and_ok h1 h2 => exact ⟨_, _, _, h1, h2, rfl⟩
  · rintro ⟨q, n1, n2, h1, h2, rfl⟩
    exact .and_ok h1 h2

theorem address_iff (hp : ∀ as ∈ alts, PlainAtoms as) {P : Nat → Prop}
    (hs : ∀ {s r ws}, altsRun alts s = some (r, ws) → ∃ n, P n ∧ s = Nat.toDigits 10 n ++ r ∧ ws.flatten = Nat.toDigits 10 n)
    (hd : ∀ {n}, P n → ∀ r, ∃ ws, altsRun alts (Nat.toDigits 10 n ++ '.' :: r) = some ('.' :: r, ws) ∧ ws.flatten = Nat.toDigits 10 n)
    (he : ∀ {n}, P n → ∃ ws, altsRun alts (Nat.toDigits 10 n) = some ([], ws) ∧ ws.flatten = Nat.toDigits 10 n) :
    (∀ s t, parse s (addressRules alts) = .ok t → ∃ a b c d, P a ∧ P b ∧ P c ∧ P d ∧
      s = dottedQuad (Nat.toDigits 10 a) (Nat.toDigits 10 b) (Nat.toDigits 10 c) (Nat.toDigits 10 d)) ∧
    ∀ a b c d, P a → P b → P c → P d → ∃ wa wb wc wd : List Str,
      wa.flatten = Nat.toDigits 10 a ∧ wb.flatten = Nat.toDigits 10 b ∧ wc.flatten = Nat.toDigits 10 c ∧ wd.flatten = Nat.toDigits 10 d ∧
      parse (dottedQuad (Nat.toDigits 10 a) (Nat.toDigits 10 b) (Nat.toDigits 10 c) (Nat.toDigits 10 d)) (addressRules alts) =
        .ok (addressTree wa wb wc wd) := by
  constructor
  · intro s t h
    obtain ⟨_, h⟩ := (parse_iff _ _ _).1 h
    cases h with
    | call_ok hG h =>
      rw [address_main] at hG
      cases hG
      obtain ⟨q1, n1, m1, h1, h, -⟩ := and_cons.1 h
      obtain ⟨q2, n2, m2, h2, h, -⟩ := and_cons.1 h
      obtain ⟨q3, n3, m3, h3, h, -⟩ := and_cons.1 h
      obtain ⟨q4, n4, m4, h4, h, -⟩ := and_cons.1 h
      obtain ⟨q5, n5, m5, h5, h, -⟩ := and_cons.1 h
      obtain ⟨q6, n6, m6, h6, h, -⟩ := and_cons.1 h
      obtain ⟨q7, n7, m7, h7, h, -⟩ := and_cons.1 h
      cases h
      obtain ⟨rfl, -⟩ := dot_step.1 h2
      obtain ⟨rfl, -⟩ := dot_step.1 h4
      obtain ⟨rfl, -⟩ := dot_step.1 h6
      obtain ⟨w1, h1, -⟩ := (octet_call hp).1 h1
      obtain ⟨w3, h3, -⟩ := (octet_call hp).1 h3
      obtain ⟨w5, h5, -⟩ := (octet_call hp).1 h5
      obtain ⟨w7, h7, -⟩ := (octet_call hp).1 h7
      obtain ⟨a, ha, rfl, -⟩ := hs h1
      obtain ⟨b, hb, rfl, -⟩ := hs h3
      obtain ⟨c, hc, rfl, -⟩ := hs h5
      obtain ⟨d, hd, rfl, -⟩ := hs h7
      exact ⟨a, b, c, d, ha, hb, hc, hd, by simp [dottedQuad]⟩
  · intro a b c d ha hb hc hd'
    obtain ⟨wa, h1, e1⟩ := hd ha (Nat.toDigits 10 b ++ '.' :: (Nat.toDigits 10 c ++ '.' :: Nat.toDigits 10 d))
    obtain ⟨wb, h2, e2⟩ := hd hb (Nat.toDigits 10 c ++ '.' :: Nat.toDigits 10 d)
    obtain ⟨wc, h3, e3⟩ := hd hc (Nat.toDigits 10 d)
    obtain ⟨wd, h4, e4⟩ := he hd'
    refine ⟨wa, wb, wc, wd, e1, e2, e3, e4, (parse_iff _ _ _).2 ⟨?_, .call_ok address_main ?_⟩⟩
    · have hx : ∀ n, Ascii (Nat.toDigits 10 n) := fun n => plain_ascii (plain_toDigits n)
      intro x hx'
      simp only [dottedQuad, List.mem_append, List.mem_cons] at hx'
      rcases hx' with h | rfl | h | rfl | h | rfl | h
      · exact hx a x h
      · decide
      · exact hx b x h
      · decide
      · exact hx c x h
      · decide
      · exact hx d x h
    · exact .and_ok ((octet_call hp).2 ⟨wa, h1, rfl⟩) (.and_ok (dot_step.2 ⟨rfl, rfl⟩)
        (.and_ok ((octet_call hp).2 ⟨wb, h2, rfl⟩) (.and_ok (dot_step.2 ⟨rfl, rfl⟩)
        (.and_ok ((octet_call hp).2 ⟨wc, h3, rfl⟩) (.and_ok (dot_step.2 ⟨rfl, rfl⟩)
        (.and_ok ((octet_call hp).2 ⟨wd, h4, rfl⟩) (.and_nil [])))))))

end

/-- **C111**: with the long alternatives of a number first, exactly the four numbers below 256 with dots between them
are accepted. -/
theorem C111_addresses (s : Str) :
    (∃ t, parse s (addressRules octetAlts) = .ok t) ↔ ∃ a b c d, a < 256 ∧ b < 256 ∧ c < 256 ∧ d < 256 ∧
      s = dottedQuad (Nat.toDigits 10 a) (Nat.toDigits 10 b) (Nat.toDigits 10 c) (Nat.toDigits 10 d) := by
  have h := address_iff (P := (· < 256)) octetAlts_plain octet_sound octet_dot octet_end
  constructor
  · rintro ⟨t, ht⟩
    exact h.1 s t ht
  · rintro ⟨a, b, c, d, ha, hb, hc, hd, rfl⟩
    obtain ⟨wa, wb, wc, wd, -, -, -, -, ht⟩ := h.2 a b c d ha hb hc hd
    exact ⟨_, ht⟩

/-- **C111**: the four nodes of the tree spell the four numbers. -/
theorem C111_address_tree {a b c d : Nat} (ha : a < 256) (hb : b < 256) (hc : c < 256) (hd : d < 256) :
    ∃ wa wb wc wd : List Str,
      wa.flatten = Nat.toDigits 10 a ∧ wb.flatten = Nat.toDigits 10 b ∧ wc.flatten = Nat.toDigits 10 c ∧ wd.flatten = Nat.toDigits 10 d ∧
      parse (dottedQuad (Nat.toDigits 10 a) (Nat.toDigits 10 b) (Nat.toDigits 10 c) (Nat.toDigits 10 d)) (addressRules octetAlts) =
        .ok (addressTree wa wb wc wd) :=
  (address_iff (P := (· < 256)) octetAlts_plain octet_sound octet_dot octet_end).2 a b c d ha hb hc hd

theorem short_sound {s r : Str} {ws : List Str} (h : altsRun octetAlts.reverse s = some (r, ws)) :
    ∃ n < 10, s = Nat.toDigits 10 n ++ r ∧ ws.flatten = Nat.toDigits 10 n := by
  have he : octetAlts.reverse = [oneOf '0' '9'] :: (octetAlts.take 4).reverse := rfl
  rw [he, altsRun] at h
  cases hq : atomsRun [oneOf '0' '9'] s with
  | some p =>
    rw [hq] at h
    cases h
    obtain ⟨c, q, w, rfl, hc, h2, hw⟩ := atomsRun_one hq
    obtain ⟨k, -, hk, rfl⟩ := digit_char (c := c) (lo := 0) (hi := 9) hc.1 hc.2 (by decide)
    cases h2
    cases hw
    have := Nat.toDigits_of_lt_base (b := 10) (n := k) (by omega)
    exact ⟨k, by omega, by rw [this]; rfl, by rw [this]; rfl⟩
  | none =>
    exfalso
    rw [hq] at h
    have hn : ∀ c q, s = c :: q → '0'.toNat ≤ c.toNat → c.toNat ≤ '9'.toNat → False := by
      rintro c q rfl h1 h2
      have : (List.contains [] c || [('0', '9')].any fun r => decide (r.1.toNat ≤ c.toNat) && decide (c.toNat ≤ r.2.toNat)) = true :=
        (inClass_iff _ _ _).2 (inOneOf.2 ⟨h1, h2⟩)
      simp only [atomsRun, oneOf, this, if_true] at hq
      cases hq
    obtain ⟨as, ha, h⟩ := altsRun_some h
    have ha' : as ∈ [[oneOf '1' '9', oneOf '0' '9'], [.literal c!"1", oneOf '0' '9', oneOf '0' '9'],
      [.literal c!"2", oneOf '0' '4', oneOf '0' '9'], [.literal c!"25", oneOf '0' '5']] := ha
    simp only [List.mem_cons, List.not_mem_nil, or_false] at ha'
    rcases ha' with rfl | rfl | rfl | rfl
    · obtain ⟨c, q, _, rfl, hc, -, -⟩ := atomsRun_one h
      exact hn c q rfl (Nat.le_trans (by decide) hc.1) hc.2
    · obtain ⟨q, _, rfl, -, -⟩ := atomsRun_lit h
      exact hn _ _ rfl (by decide) (by decide)
    · obtain ⟨q, _, rfl, -, -⟩ := atomsRun_lit h
      exact hn _ _ rfl (by decide) (by decide)
    · obtain ⟨q, _, rfl, -, -⟩ := atomsRun_lit h
      exact hn _ _ rfl (by decide) (by decide)

/-- **C111**: the same alternatives in the opposite order accept only numbers of one digit. -/
theorem C111_short_first (s : Str) :
    (∃ t, parse s (addressRules octetAlts.reverse) = .ok t) ↔ ∃ a b c d, a < 10 ∧ b < 10 ∧ c < 10 ∧ d < 10 ∧
      s = dottedQuad (Nat.toDigits 10 a) (Nat.toDigits 10 b) (Nat.toDigits 10 c) (Nat.toDigits 10 d) := by
  have h := address_iff (alts := octetAlts.reverse) (P := (· < 10)) (fun as ha => octetAlts_plain as (List.mem_reverse.1 ha)) short_sound
    (fun {n} (hn : n < 10) r => by interval_cases n <;> exact ⟨_, rfl, rfl⟩)
    (fun {n} (hn : n < 10) => by interval_cases n <;> exact ⟨_, rfl, rfl⟩)
  constructor
  · rintro ⟨t, ht⟩
    exact h.1 s t ht
  · rintro ⟨a, b, c, d, ha, hb, hc, hd, rfl⟩
    obtain ⟨wa, wb, wc, wd, -, -, -, -, ht⟩ := h.2 a b c d ha hb hc hd
    exact ⟨_, ht⟩

theorem numeral_wf : WellFormed (denotes numeralRules) := wf_of_check (nul := []) (ranks := [c!"main"]) (by decide +kernel)

theorem address_wf : WellFormed (denotes (addressRules octetAlts)) :=
  wf_of_check (nul := []) (ranks := [c!"octet", c!"main"]) (by decide +kernel)

/-- **C111**: the calls are at most proportional to the length of the text for numerals, and bounded for addresses,
whatever the text. -/
theorem C111_calls : (∃ K, ∀ s, Ascii s → ∃ m, Uses s numeralRules m ∧ m.calls ≤ K * (s.length + 1)) ∧
    ∃ K, ∀ s, Ascii s → ∃ m, Uses s (addressRules octetAlts) m ∧ m.calls ≤ K := by
  constructor
  · have hm : denotes numeralRules c!"main" =
        some (.or [.simple (.literal c!"0"), .and [.simple (oneOf '1' '9'), .rep (.simple (oneOf '0' '9')) 0 none]]) := by decide
    have := C69_power numeral_wf (d := 1) (.call hm (.or fun e he => by
      simp only [List.mem_cons, List.not_mem_nil, or_false] at he
      rcases he with rfl | rfl
      · exact .simple _ _
      · refine .and fun e he => ?_
        simp only [List.mem_cons, List.not_mem_nil, or_false] at he
        rcases he with rfl | rfl
        · exact .simple _ _
        · exact .unbounded 0 (.simple _ _)))
    simpa using this
  · have ho : Nested (denotes (addressRules octetAlts)) (.ruleName c!"octet") 0 := .call address_octet (.or fun e he => by
      obtain ⟨as, _, rfl⟩ := List.mem_map.1 he
      have h : Nested (denotes (addressRules octetAlts)) (.and (as.map .simple)) 0 := .and fun e he => by
        obtain ⟨a, _, rfl⟩ := List.mem_map.1 he
        exact .simple _ _
      match as, h with
      | [], h => exact h
      | [a], _ => exact .simple a 0
      | _ :: _ :: _, h => exact h)
    refine C69_constant address_wf (.call address_main (.and fun e he => ?_))
    simp only [List.mem_cons, List.not_mem_nil, or_false] at he
    rcases he with rfl | rfl | rfl | rfl | rfl | rfl | rfl
    all_goals first | exact ho | exact .simple _ _

/-- **C111**: every other ASCII text is an error. -/
theorem C111_refused {s : Str} (ha : Ascii s) :
    ((∀ n, s ≠ Nat.toDigits 10 n) → ∃ e, parse s numeralRules = .err e) ∧
    ((¬ ∃ a b c d, a < 256 ∧ b < 256 ∧ c < 256 ∧ d < 256 ∧
      s = dottedQuad (Nat.toDigits 10 a) (Nat.toDigits 10 b) (Nat.toDigits 10 c) (Nat.toDigits 10 d)) →
      ∃ e, parse s (addressRules octetAlts) = .err e) := by
  constructor
  · intro h
    rcases C12_total_on_ascii numeral_wf ha with ⟨t, ht⟩ | h1
    · obtain ⟨⟨n, hn⟩, -⟩ := (C111_numerals s t).1 ht
      exact absurd hn (h n)
    · exact h1
  · intro h
    rcases C12_total_on_ascii address_wf ha with ht | h1
    · exact absurd ((C111_addresses s).1 ht) h
    · exact h1

/-- **C111**: the PEG texts of these rules. -/
theorem C111_peg :
    rulesFromPeg c!"main = \"0\" / [1-9] [0-9]*\n" = .ok numeralRules ∧
    rulesFromPeg (c!"main = octet \".\" octet \".\" octet \".\" octet\n" ++
      c!"octet = \"25\" [0-5] / \"2\" [0-4] [0-9] / \"1\" [0-9] [0-9] / [1-9] [0-9] / [0-9]\n") = .ok (addressRules octetAlts) :=
  ⟨rulesFromPeg_of 200 (by decide +kernel), rulesFromPeg_of 400 (by decide +kernel)⟩

/-! ### Examples -/

example : parse c!"1024" numeralRules = .ok (.rule c!"main" [.val c!"1", .val c!"0", .val c!"2", .val c!"4"]) := C111_each 1024

example : ¬ ∃ n, c!"007" = Nat.toDigits 10 n := by
  rw [← plain_iff]
  rintro (h | ⟨c, cs, h, hc, -⟩)
  · exact absurd h (by decide)
  · cases h
    exact absurd hc.1 (by decide)

/-- 192.168.0.255 is accepted, -/
example : ∃ t, parse c!"192.168.0.255" (addressRules octetAlts) = .ok t :=
  (C111_addresses _).2 ⟨192, 168, 0, 255, by decide, by decide, by decide, by decide, by decide⟩

/-- 1.2.3.4 in both orders, -/
example : ∃ t, parse c!"1.2.3.4" (addressRules octetAlts.reverse) = .ok t :=
  (C111_short_first _).2 ⟨1, 2, 3, 4, by decide, by decide, by decide, by decide, by decide⟩

/-- and 10.0.0.1 in one order only. -/
example : (∃ t, parse c!"10.0.0.1" (addressRules octetAlts) = .ok t) ∧ ¬ ∃ t, parse c!"10.0.0.1" (addressRules octetAlts.reverse) = .ok t := by
  refine ⟨(C111_addresses _).2 ⟨10, 0, 0, 1, by decide, by decide, by decide, by decide, by decide⟩, fun h => ?_⟩
  obtain ⟨a, b, c, d, ha, hb, hc, hd, h⟩ := (C111_short_first _).1 h
  rw [Nat.toDigits_of_lt_base ha, Nat.toDigits_of_lt_base hb, Nat.toDigits_of_lt_base hc, Nat.toDigits_of_lt_base hd] at h
  exact absurd (congrArg List.length h) (by simp [dottedQuad])

end DP
