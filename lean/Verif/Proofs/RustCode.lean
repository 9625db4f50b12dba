/-
The readings of the generated Rust code are unambiguous.
-/
import Verif.Spec.RustCode
import Mathlib.Tactic.Common

set_option linter.unusedSimpArgs false

namespace DP
open Spec

theorem hexNum_det {ds n} (h : HexNum ds n) : ∀ {m}, HexNum ds m → n = m := by
  induction h with
  | nil =>
    intro m h
    generalize he : ([] : Str) = ds at h
    cases h with
    | nil => rfl
    | snoc _ _ => simp at he
  | @snoc ds n c d h hd ih =>
    intro m hm
    generalize he : ds ++ [c] = ds' at hm
    cases hm with
    | nil => simp at he
    | @snoc ds2 n2 c2 d2 h2 hd2 =>
      obtain ⟨h3, h4⟩ := List.append_inj' he rfl
      subst h3
      cases h4
      rw [hd] at hd2
      cases hd2
      rw [ih h2]

theorem hexNum_digits {ds n} (h : HexNum ds n) : ∀ c ∈ ds, c ≠ '}' := by
  induction h with
  | nil => simp
  | snoc _ hd ih =>
    intro c hc
    rcases List.mem_append.mp hc with hc | hc
    · exact ih c hc
    · simp only [List.mem_singleton] at hc
      subst hc
      rintro rfl
      exact absurd hd (by simp [hexVal])

/-- splitting at the first occurrence of a character -/
theorem split_first {c : Char} : ∀ {a b r r' : Str}, c ∉ a → c ∉ b → a ++ c :: r = b ++ c :: r' → a = b ∧ r = r'
  | [], [], _, _, _, _, h => by cases h; exact ⟨rfl, rfl⟩
  | [], y :: b, _, _, _, h2, h => by cases h; simp at h2
  | x :: a, [], _, _, h1, _, h => by cases h; simp at h1
  | x :: a, y :: b, r, r', h1, h2, h => by
    simp only [List.cons_append, List.cons.injEq] at h
    obtain ⟨rfl, h⟩ := h
    simp only [List.mem_cons, not_or] at h1 h2
    obtain ⟨rfl, h3⟩ := split_first h1.2 h2.2 h
    exact ⟨rfl, h3⟩

/-- splitting after the longest run of characters of a kind -/
theorem split_run {p : Char → Prop} : ∀ {a b r r' : Str}, (∀ c ∈ a, p c) → (∀ c ∈ b, p c) →
    (∀ c ∈ r.head?, ¬ p c) → (∀ c ∈ r'.head?, ¬ p c) → a ++ r = b ++ r' → a = b ∧ r = r'
  | [], [], _, _, _, _, _, _, h => ⟨rfl, h⟩
  | [], y :: b, r, _, _, h2, h3, _, h => by
    simp only [List.nil_append] at h
    subst h
    exact absurd (h2 y List.mem_cons_self) (h3 y (by simp))
  | x :: a, [], _, r', h1, _, _, h4, h => by
    simp only [List.nil_append] at h
    subst h
    exact absurd (h1 x List.mem_cons_self) (h4 x (by simp))
  | x :: a, y :: b, r, r', h1, h2, h3, h4, h => by
    simp only [List.cons_append, List.cons.injEq] at h
    obtain ⟨rfl, h⟩ := h
    obtain ⟨rfl, h3⟩ := split_run (fun c hc => h1 c (List.mem_cons_of_mem _ hc))
      (fun c hc => h2 c (List.mem_cons_of_mem _ hc)) h3 h4 h
    exact ⟨rfl, h3⟩

theorem char_toNat_inj {c d : Char} (h : c.toNat = d.toNat) : c = d := Char.toNat_inj.mp h

theorem rustStr_det {b v} (h : RustStr b v) : ∀ {b' v' r r'}, RustStr b' v' → b ++ '"' :: r = b' ++ '"' :: r' →
    b = b' ∧ v = v' ∧ r = r' := by
  induction h with
  | nil =>
    intro b' v' r r' h he
    cases h with
    | plain h4 h5 => simp only [List.cons_append, List.nil_append, List.cons.injEq] at he; exact absurd he.1.symm (by assumption)
    | _ => simp_all
  | plain h1 h2 h3 h ih =>
    intro b' v' r r' h' he
    cases h' with
    | plain h4 h5 h6 h7 =>
      simp only [List.cons_append, List.cons.injEq] at he
      have hx := he.1
      obtain ⟨rfl, rfl, rfl⟩ := ih h7 he.2
      exact ⟨by rw [hx], by rw [hx], rfl⟩
    | _ => simp_all
  | hex h1 h2 h3 h ih =>
    intro b' v' r r' h' he
    cases h' with
    | hex h4 h5 h6 h7 =>
      simp only [List.cons_append, List.cons.injEq, true_and] at he
      obtain ⟨rfl, rfl, he⟩ := he
      replace he := ih h7 he
      obtain ⟨rfl, rfl, rfl⟩ := he
      have := hexNum_det h1 h4
      exact ⟨rfl, by rw [char_toNat_inj (h3.trans (this.trans h6.symm))], rfl⟩
    | plain h4 h5 => simp only [List.cons_append, List.cons.injEq] at he; exact absurd he.1.symm (by assumption)
    | _ => simp_all
  | @uni ds b v n c h1 h2 h3 h4 h ih =>
    intro b' v' r r' h' he
    cases h' with
    | uni h5 h6 h7 h8 h9 =>
      simp only [List.cons_append, List.cons.injEq, true_and, List.append_assoc] at he
      replace he := split_first (fun hm => hexNum_digits h1 _ hm rfl) (fun hm => hexNum_digits h5 _ hm rfl) he
      obtain ⟨rfl, he⟩ := he
      replace he := ih h9 he
      obtain ⟨rfl, rfl, rfl⟩ := he
      have := hexNum_det h1 h5
      exact ⟨rfl, by rw [char_toNat_inj (h4.trans (this.trans h8.symm))], rfl⟩
    | plain h4 h5 => simp only [List.cons_append, List.cons.injEq] at he; exact absurd he.1.symm (by assumption)
    | _ => simp_all
  | @cont w b v h1 h2 h ih =>
    intro b' v' r r' h' he
    cases h' with
    | cont h3 h4 h5 =>
      simp only [List.cons_append, List.cons.injEq, true_and, List.append_assoc] at he
      have hh : ∀ (b : Str) (r : Str), (∀ c ∈ b.head?, c ≠ ' ' ∧ c ≠ '\t' ∧ c ≠ '\n') →
          ∀ c ∈ (b ++ '"' :: r).head?, ¬ (c = ' ' ∨ c = '\t' ∨ c = '\n') := by
        intro b r hb c hc
        cases b with
        | nil => simp at hc; subst hc; decide
        | cons x b =>
          have := hb c hc
          simp [this.1, this.2.1, this.2.2]
      replace he := split_run (p := fun c => c = ' ' ∨ c = '\t' ∨ c = '\n') h1 h3 (hh _ _ h2) (hh _ _ h4) he
      obtain ⟨rfl, he⟩ := he
      replace he := ih h5 he
      obtain ⟨rfl, rfl, rfl⟩ := he
      exact ⟨rfl, rfl, rfl⟩
    | plain h4 h5 => simp only [List.cons_append, List.cons.injEq] at he; exact absurd he.1.symm (by assumption)
    | _ => simp_all
  | n h ih | r h ih | t h ih | bs h ih | nul h ih | sq h ih | dq h ih =>
    intro b' v' r r' h' he
    cases h' with
    | plain h4 h5 => simp only [List.cons_append, List.cons.injEq] at he; exact absurd he.1.symm (by assumption)
    | hex => simp_all
    | uni => simp_all
    | cont => simp_all
    | nil => simp_all
    | _ h7 =>
      simp only [List.cons_append, List.cons.injEq, true_and, false_and, Char.reduceEq] at he
      try
        replace he := ih h7 he
        obtain ⟨rfl, rfl, rfl⟩ := he
        exact ⟨rfl, rfl, rfl⟩

theorem rawStr_det : ∀ {a b r r' : Str}, ¬ ['"', '#'] <:+: a → ¬ ['"', '#'] <:+: b →
    a ++ '"' :: '#' :: r = b ++ '"' :: '#' :: r' → a = b ∧ r = r'
  | [], [], _, _, _, _, h => by cases h; exact ⟨rfl, rfl⟩
  | [], y :: b, _, _, _, h2, h => by
    cases b with
    | nil => simp at h
    | cons z b =>
      simp only [List.nil_append, List.cons_append, List.cons.injEq] at h
      obtain ⟨rfl, rfl, _⟩ := h
      exact absurd (⟨[], b, rfl⟩ : ['"', '#'] <:+: '"' :: '#' :: b) h2
  | x :: a, [], _, _, h1, _, h => by
    cases a with
    | nil => simp at h
    | cons z a =>
      simp only [List.nil_append, List.cons_append, List.cons.injEq] at h
      obtain ⟨rfl, rfl, _⟩ := h
      exact absurd (⟨[], a, rfl⟩ : ['"', '#'] <:+: '"' :: '#' :: a) h1
  | x :: a, y :: b, r, r', h1, h2, h => by
    simp only [List.cons_append, List.cons.injEq] at h
    obtain ⟨rfl, h⟩ := h
    obtain ⟨rfl, h3⟩ := rawStr_det (fun hi => h1 (List.infix_cons hi)) (fun hi => h2 (List.infix_cons hi)) h
    exact ⟨rfl, h3⟩

theorem blank_det {w w' r r' : Str} (hw : Blank w) (hw' : Blank w') (hr : ∀ c ∈ r.head?, c ≠ ' ' ∧ c ≠ '\n')
    (hr' : ∀ c ∈ r'.head?, c ≠ ' ' ∧ c ≠ '\n') (h : w ++ r = w' ++ r') : w = w' ∧ r = r' :=
  split_run (p := fun c => c = ' ' ∨ c = '\n') hw hw' (fun c hc => by simp [hr c hc]) (fun c hc => by simp [hr' c hc]) h

theorem decLit_det {ds ds' : Str} {n n' r r'} (h : DecLit ds n) (h' : DecLit ds' n')
    (hr : ∀ c ∈ r.head?, ¬ ('0' ≤ c ∧ c ≤ '9')) (hr' : ∀ c ∈ r'.head?, ¬ ('0' ≤ c ∧ c ≤ '9'))
    (he : ds ++ r = ds' ++ r') : ds = ds' ∧ n = n' ∧ r = r' := by
  obtain ⟨rfl, h2⟩ := split_run (p := fun c => '0' ≤ c ∧ c ≤ '9') h.2.1 h'.2.1 hr hr' he
  exact ⟨rfl, h.2.2.symm.trans h'.2.2, h2⟩

theorem rustRange_det {s s' : Str} {p p' r r'} (h : RustRange s p) (h' : RustRange s' p')
    (hr : ∀ c ∈ r.head?, c ≠ ' ' ∧ c ≠ '\n') (hr' : ∀ c ∈ r'.head?, c ≠ ' ' ∧ c ≠ '\n')
    (he : s ++ r = s' ++ r') : s = s' ∧ p = p' ∧ r = r' := by
  cases h with
  | mk a1 a2 a3 a4 a5 a6 a7 =>
    cases h' with
    | mk b1 b2 b3 b4 b5 b6 b7 =>
      simp only [List.append_assoc] at he
      replace he := blank_det a1 b1 (by simp) (by simp) he
      obtain ⟨rfl, he⟩ := he
      simp only [List.cons_append, List.nil_append, List.cons.injEq, true_and] at he
      replace he := blank_det a2 b2 (by simp) (by simp) he
      obtain ⟨rfl, he⟩ := he
      simp only [List.cons_append, List.nil_append, List.cons.injEq, true_and] at he
      obtain ⟨rfl, he⟩ := he
      replace he := blank_det a3 b3 (by simp) (by simp) he
      obtain ⟨rfl, he⟩ := he
      simp only [List.cons_append, List.nil_append, List.cons.injEq, true_and] at he
      replace he := blank_det a4 b4 (by simp) (by simp) he
      obtain ⟨rfl, he⟩ := he
      simp only [List.cons_append, List.nil_append, List.cons.injEq, true_and] at he
      obtain ⟨rfl, he⟩ := he
      replace he := blank_det a5 b5 hr hr' he
      obtain ⟨rfl, he⟩ := he
      exact ⟨rfl, rfl, he⟩

theorem rustRanges_det {s : Str} {p} (h : RustRanges s p) : ∀ {s' p' r r'}, RustRanges s' p' →
    s ++ ')' :: r = s' ++ ')' :: r' → s = s' ∧ p = p' ∧ r = r' := by
  induction h with
  | one h1 =>
    intro s' p' r r' h' he
    cases h' with
    | one h2 =>
      replace he := rustRange_det h1 h2 (by simp) (by simp) he
      obtain ⟨rfl, rfl, h3⟩ := he
      simp only [List.cons.injEq, true_and] at h3
      exact ⟨rfl, rfl, h3⟩
    | cons h2 h3 =>
      simp only [List.append_assoc] at he
      obtain ⟨_, _, h3⟩ := rustRange_det h1 h2 (by simp) (by simp) he
      simp at h3
  | cons h1 h2 ih =>
    intro s' p' r r' h' he
    simp only [List.append_assoc] at he
    cases h' with
    | one h2 =>
      obtain ⟨_, _, h3⟩ := rustRange_det h1 h2 (by simp) (by simp) he
      simp at h3
    | cons h3 h4 =>
      simp only [List.append_assoc] at he
      replace he := rustRange_det h1 h3 (by simp) (by simp) he
      obtain ⟨rfl, rfl, h5⟩ := he
      simp only [List.cons_append, List.nil_append, List.cons.injEq, true_and] at h5
      obtain ⟨rfl, rfl, h6⟩ := ih h4 h5
      exact ⟨rfl, rfl, h6⟩

theorem rustExpr_head {s e} (h : RustExpr s e) : ∃ c t, s = c :: t ∧ 'a' ≤ c ∧ c ≤ 'z' := by
  cases h <;> exact ⟨_, _, rfl, by decide, by decide⟩

theorem rustArgs_head {s es} (h : RustArgs s es) (hn : es ≠ []) : ∃ c t, s = c :: t ∧ 'a' ≤ c ∧ c ≤ 'z' := by
  cases h with
  | nil => exact absurd rfl hn
  | one h => exact rustExpr_head h
  | cons h =>
    obtain ⟨c, t, rfl, h2⟩ := rustExpr_head h
    exact ⟨c, _, rfl, h2⟩

theorem rustArgs_blank {s es r} (h : RustArgs s es) (hn : es ≠ []) : ∀ c ∈ (s ++ r).head?, c ≠ ' ' ∧ c ≠ '\n' := by
  obtain ⟨c, t, rfl, h2, h3⟩ := rustArgs_head h hn
  intro d hd
  simp at hd
  subst hd
  constructor <;> (rintro rfl; revert h2 h3; decide)

theorem decLit_blank {ds n r} (h : DecLit ds n) : ∀ c ∈ (ds ++ r).head?, c ≠ ' ' ∧ c ≠ '\n' := by
  obtain ⟨h1, h2, _⟩ := h
  cases ds with
  | nil => exact absurd rfl h1
  | cons d ds =>
    intro c hc
    simp at hc
    subst hc
    have := h2 d List.mem_cons_self
    constructor <;> (rintro rfl; revert this; decide)

mutual
theorem rustExpr_det : ∀ {s e}, RustExpr s e → ∀ {s' e' r r'}, RustExpr s' e' → s ++ r = s' ++ r' →
    s = s' ∧ e = e' ∧ r = r'
  | _, _, .lit h1, s', e', r, r', h', he => by
    cases h' with
    | lit h2 =>
      simp only [List.append_assoc, List.cons_append, List.nil_append, List.cons.injEq, true_and] at he
      replace he := rustStr_det h1 h2 he
      obtain ⟨rfl, rfl, h3⟩ := he
      simp only [List.cons.injEq, true_and] at h3
      exact ⟨rfl, rfl, h3⟩
    | _ => simp at he
  | _, _, .error h1, s', e', r, r', h', he => by
    cases h' with
    | error h2 =>
      simp only [List.append_assoc, List.cons_append, List.nil_append, List.cons.injEq, true_and] at he
      replace he := rustStr_det h1 h2 he
      obtain ⟨rfl, rfl, h3⟩ := he
      simp only [List.cons.injEq, true_and] at h3
      exact ⟨rfl, rfl, h3⟩
    | _ => simp at he
  | _, _, .dot, s', e', r, r', h', he => by
    cases h' with
    | dot =>
      simp only [List.cons_append, List.nil_append, List.cons.injEq, true_and] at he
      exact ⟨rfl, rfl, he⟩
    | _ => simp at he
  | _, _, .ematch h1 hw1 h2, s', e', r, r', h', he => by
    cases h' with
    | ematch h3 hw2 h4 =>
      simp only [List.append_assoc, List.cons_append, List.nil_append, List.cons.injEq, true_and] at he
      replace he := rawStr_det h1.1 h3.1 he
      obtain ⟨rfl, he⟩ := he
      replace he := blank_det hw1 hw2 (by simp) (by simp) he
      obtain ⟨rfl, he⟩ := he
      simp only [List.cons.injEq, true_and] at he
      replace he := rustRanges_det h2 h4 he
      obtain ⟨rfl, rfl, rfl⟩ := he
      exact ⟨rfl, rfl, rfl⟩
    | _ => simp at he
  | _, _, .and h1, s', e', r, r', h', he => by
    cases h' with
    | and h2 =>
      simp only [List.append_assoc, List.cons_append, List.nil_append, List.cons.injEq, true_and] at he
      replace he := rustArgs_det h1 h2 he
      obtain ⟨rfl, rfl, rfl⟩ := he
      exact ⟨rfl, rfl, rfl⟩
    | _ => simp at he
  | _, _, .or h1, s', e', r, r', h', he => by
    cases h' with
    | or h2 =>
      simp only [List.append_assoc, List.cons_append, List.nil_append, List.cons.injEq, true_and] at he
      replace he := rustArgs_det h1 h2 he
      obtain ⟨rfl, rfl, rfl⟩ := he
      exact ⟨rfl, rfl, rfl⟩
    | _ => simp at he
  | _, _, .not h1, s', e', r, r', h', he => by
    cases h' with
    | not h2 =>
      simp only [List.append_assoc, List.cons_append, List.nil_append, List.cons.injEq, true_and] at he
      replace he := rustExpr_det h1 h2 he
      obtain ⟨rfl, rfl, h3⟩ := he
      simp only [List.cons.injEq, true_and] at h3
      exact ⟨rfl, rfl, h3⟩
    | _ => simp at he
  | _, _, .rep h1 hw h2, s', e', r, r', h', he => by
    cases h' with
    | rep h3 hw' h4 =>
      simp only [List.append_assoc, List.cons_append, List.nil_append, List.cons.injEq, true_and] at he
      replace he := rustExpr_det h1 h3 he
      obtain ⟨rfl, rfl, he⟩ := he
      simp only [List.cons.injEq, true_and] at he
      replace he := blank_det hw hw' (decLit_blank h2) (decLit_blank h4) he
      obtain ⟨rfl, he⟩ := he
      replace he := decLit_det h2 h4 (by simp) (by simp) he
      obtain ⟨rfl, rfl, he⟩ := he
      simp only [List.cons.injEq, true_and] at he
      exact ⟨rfl, rfl, he⟩
    | repMax h3 hw' h4 =>
      simp only [List.append_assoc, List.cons_append, List.nil_append, List.cons.injEq, true_and] at he
      replace he := rustExpr_det h1 h3 he
      obtain ⟨rfl, rfl, he⟩ := he
      simp only [List.cons.injEq, true_and] at he
      replace he := blank_det hw hw' (decLit_blank h2) (decLit_blank h4) he
      obtain ⟨rfl, he⟩ := he
      replace he := decLit_det h2 h4 (by simp) (by simp) he
      obtain ⟨rfl, rfl, he⟩ := he
      simp at he
    | _ => simp at he
  | _, _, .repMax h1 hw h2 hv h5, s', e', r, r', h', he => by
    cases h' with
    | rep h3 hw' h4 =>
      simp only [List.append_assoc, List.cons_append, List.nil_append, List.cons.injEq, true_and] at he
      replace he := rustExpr_det h1 h3 he
      obtain ⟨rfl, rfl, he⟩ := he
      simp only [List.cons.injEq, true_and] at he
      replace he := blank_det hw hw' (decLit_blank h2) (decLit_blank h4) he
      obtain ⟨rfl, he⟩ := he
      replace he := decLit_det h2 h4 (by simp) (by simp) he
      obtain ⟨rfl, rfl, he⟩ := he
      simp at he
    | repMax h3 hw' h4 hv' h6 =>
      simp only [List.append_assoc, List.cons_append, List.nil_append, List.cons.injEq, true_and] at he
      replace he := rustExpr_det h1 h3 he
      obtain ⟨rfl, rfl, he⟩ := he
      simp only [List.cons.injEq, true_and] at he
      replace he := blank_det hw hw' (decLit_blank h2) (decLit_blank h4) he
      obtain ⟨rfl, he⟩ := he
      replace he := decLit_det h2 h4 (by simp) (by simp) he
      obtain ⟨rfl, rfl, he⟩ := he
      simp only [List.cons.injEq, true_and] at he
      replace he := blank_det hv hv' (decLit_blank h5) (decLit_blank h6) he
      obtain ⟨rfl, he⟩ := he
      replace he := decLit_det h5 h6 (by simp) (by simp) he
      obtain ⟨rfl, rfl, he⟩ := he
      simp only [List.cons.injEq, true_and] at he
      exact ⟨rfl, rfl, he⟩
    | _ => simp at he
  | _, _, .ref h1, s', e', r, r', h', he => by
    cases h' with
    | ref h2 =>
      simp only [List.append_assoc, List.cons_append, List.nil_append, List.cons.injEq, true_and] at he
      replace he := rawStr_det h1.1 h2.1 he
      obtain ⟨rfl, he⟩ := he
      simp only [List.cons.injEq, true_and] at he
      exact ⟨rfl, rfl, he⟩
    | _ => simp at he
theorem rustArgs_det : ∀ {s es}, RustArgs s es → ∀ {s' es' r r'}, RustArgs s' es' → s ++ ')' :: r = s' ++ ')' :: r' →
    s = s' ∧ es = es' ∧ r = r'
  | _, _, .nil, s', es', r, r', h', he => by
    by_cases hn : es' = []
    · subst hn
      cases h'
      cases he
      exact ⟨rfl, rfl, rfl⟩
    · obtain ⟨c, t, rfl, h1, h2⟩ := rustArgs_head h' hn
      cases he
      exact absurd h1 (by decide)
  | _, _, .one h1, s', es', r, r', h', he => by
    cases h' with
    | nil =>
      obtain ⟨c, t, rfl, h1, h2⟩ := rustExpr_head h1
      cases he
      exact absurd h1 (by decide)
    | one h2 =>
      replace he := rustExpr_det h1 h2 he
      obtain ⟨rfl, rfl, h3⟩ := he
      simp only [List.cons.injEq, true_and] at h3
      exact ⟨rfl, rfl, h3⟩
    | cons h2 =>
      simp only [List.append_assoc] at he
      replace he := rustExpr_det h1 h2 he
      obtain ⟨rfl, rfl, h3⟩ := he
      simp at h3
  | _, _, .cons h1 hw h2 hn, s', es', r, r', h', he => by
    simp only [List.append_assoc] at he
    cases h' with
    | nil =>
      obtain ⟨c, t, rfl, h1, h2⟩ := rustExpr_head h1
      cases he
      exact absurd h1 (by decide)
    | one h3 =>
      replace he := rustExpr_det h1 h3 he
      obtain ⟨rfl, rfl, h4⟩ := he
      simp at h4
    | cons h3 hw' h4 hn' =>
      simp only [List.append_assoc] at he
      replace he := rustExpr_det h1 h3 he
      obtain ⟨rfl, rfl, he⟩ := he
      simp only [List.cons_append, List.nil_append, List.cons.injEq, true_and] at he
      replace he := blank_det hw hw' (rustArgs_blank h2 hn) (rustArgs_blank h4 hn') he
      obtain ⟨rfl, he⟩ := he
      replace he := rustArgs_det h2 h4 he
      obtain ⟨rfl, rfl, he⟩ := he
      exact ⟨rfl, rfl, he⟩
end
end DP
