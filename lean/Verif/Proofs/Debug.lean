/-
The text of a value determines the value.
-/
import Verif.Model.Debug
import Mathlib.Tactic.Tauto

namespace DP
namespace Debug

/-! ### numbers -/

theorem digitChar16 (n m : Nat) (hn : n < 16) (hm : m < 16) :
    (Nat.digitChar n ≠ '}') ∧ (Nat.digitChar n = Nat.digitChar m → n = m) := by
  have : ∀ i j : Fin 16, (Nat.digitChar i ≠ '}') ∧ (Nat.digitChar i = Nat.digitChar j → i.val = j.val) := by decide
  exact this ⟨n, hn⟩ ⟨m, hm⟩

theorem hex_inj : ∀ n m : Nat, Nat.toDigits 16 n = Nat.toDigits 16 m → n = m := by
  intro n
  induction n using Nat.strongRecOn with
  | _ n ih =>
    intro m h
    rw [Nat.toDigits_eq_if (by omega), Nat.toDigits_eq_if (n := m) (by omega)] at h
    split at h <;> split at h
    · simp only [List.cons.injEq, and_true] at h
      exact (digitChar16 n m (by omega) (by omega)).2 h
    · have := congrArg List.length h
      have hp := Nat.length_toDigits_pos (b := 16) (n := m / 16)
      simp only [List.length_cons, List.length_nil, List.length_append] at this
      omega
    · have := congrArg List.length h
      have hp := Nat.length_toDigits_pos (b := 16) (n := n / 16)
      simp only [List.length_cons, List.length_nil, List.length_append] at this
      omega
    · obtain ⟨h1, h2⟩ := List.append_inj' h rfl
      simp only [List.cons.injEq, and_true] at h2
      have e1 := ih (n / 16) (by omega) _ h1
      have e2 := (digitChar16 (n % 16) (m % 16) (by omega) (by omega)).2 h2
      omega

theorem hex_no_brace : ∀ n : Nat, '}' ∉ Nat.toDigits 16 n := by
  intro n
  induction n using Nat.strongRecOn with
  | _ n ih =>
    rw [Nat.toDigits_eq_if (by omega)]
    split
    · intro h
      simp only [List.mem_singleton] at h
      exact (digitChar16 n 0 (by omega) (by omega)).1 h.symm
    · intro h
      rw [List.mem_append, List.mem_singleton] at h
      rcases h with h | h
      · exact ih _ (by omega) h
      · exact (digitChar16 (n % 16) 0 (by omega) (by omega)).1 h.symm

/-- Reading up to the first character that does not satisfy `p`. -/
theorem span_inj (p : Char → Bool) : ∀ {a a' r r' : Str}, (∀ c ∈ a, p c = true) → (∀ c ∈ a', p c = true) →
    (∀ c t, r = c :: t → p c = false) → (∀ c t, r' = c :: t → p c = false) → a ++ r = a' ++ r' → a = a' ∧ r = r'
  | [], [], r, r', _, _, _, _, h => ⟨rfl, h⟩
  | [], c :: a', r, r', _, h2, h3, _, h => by
    have := h3 _ _ h
    rw [h2 c (by simp)] at this; cases this
  | c :: a, [], r, r', h1, _, _, h4, h => by
    have := h4 _ _ h.symm
    rw [h1 c (by simp)] at this; cases this
  | c :: a, c' :: a', r, r', h1, h2, h3, h4, h => by
    simp only [List.cons_append, List.cons.injEq] at h
    obtain ⟨e1, e2⟩ := span_inj p (fun x hx => h1 x (by simp [hx])) (fun x hx => h2 x (by simp [hx])) h3 h4 h.2
    exact ⟨by rw [h.1, e1], e2⟩

theorem dec_inj {n m : Nat} (h : Nat.toDigits 10 n = Nat.toDigits 10 m) : n = m := by
  rw [← Nat.ofDigitChars_toDigits (b := 10) (n := n) (by omega) (by omega), h,
    Nat.ofDigitChars_toDigits (by omega) (by omega)]

/-! ### strings and characters -/

theorem escChar_quote {sty q} (hq : q = '"' ∨ q = '\'') (c : Char) : ∃ x t, escChar sty q c = x :: t ∧ x ≠ q := by
  unfold escChar
  split; · exact ⟨_, _, rfl, by rcases hq with rfl | rfl <;> decide⟩
  split; · exact ⟨_, _, rfl, by rcases hq with rfl | rfl <;> decide⟩
  split; · exact ⟨_, _, rfl, by rcases hq with rfl | rfl <;> decide⟩
  split; · exact ⟨_, _, rfl, by rcases hq with rfl | rfl <;> decide⟩
  split; · exact ⟨_, _, rfl, by rcases hq with rfl | rfl <;> decide⟩
  rename_i h
  split; · exact ⟨_, _, rfl, by rcases hq with rfl | rfl <;> decide⟩
  split
  · exact ⟨_, _, rfl, fun hc => h (by simp [hc])⟩
  · exact ⟨_, _, rfl, by rcases hq with rfl | rfl <;> decide⟩

/-- the forms an escaped character has -/
theorem escChar_forms (sty q c) :
    (escChar sty q c = c!"\\t" ∧ c = '\t') ∨ (escChar sty q c = c!"\\r" ∧ c = '\r') ∨
    (escChar sty q c = c!"\\n" ∧ c = '\n') ∨
    (escChar sty q c = ['\\', c] ∧ (c = '\\' ∨ c = q ∨ c = '\'' ∨ c = '"')) ∨
    (escChar sty q c = c!"\\0" ∧ c.toNat = 0) ∨ (escChar sty q c = [c] ∧ c ≠ '\\') ∨
    (escChar sty q c = c!"\\u{" ++ Nat.toDigits 16 c.toNat ++ c!"}") := by
  unfold escChar
  split; · left; exact ⟨rfl, ‹_›⟩
  split; · right; left; exact ⟨rfl, ‹_›⟩
  split; · right; right; left; exact ⟨rfl, ‹_›⟩
  split; · rename_i h; subst h; right; right; right; left; exact ⟨rfl, .inl rfl⟩
  rename_i hb
  split
  · rename_i h
    right; right; right; left
    refine ⟨rfl, ?_⟩
    simp only [Bool.or_eq_true, decide_eq_true_eq, Bool.and_eq_true] at h
    tauto
  split
  · rename_i h
    simp only [Bool.and_eq_true, decide_eq_true_eq] at h
    right; right; right; right; left; exact ⟨rfl, h.1⟩
  split
  · right; right; right; right; right; left; exact ⟨rfl, hb⟩
  · right; right; right; right; right; right; rfl

theorem toNat_inj {c d : Char} (h : c.toNat = d.toNat) : c = d := by
  rw [← Char.ofNat_toNat c, ← Char.ofNat_toNat d, h]

theorem escChar_read {sty q} (hq : q = '"' ∨ q = '\'') {c c' : Char} {r r' : Str}
    (h : escChar sty q c ++ r = escChar sty q c' ++ r') : c = c' ∧ r = r' := by
  have hspecial : ∀ x : Char, (x = '\\' ∨ x = q ∨ x = '\'' ∨ x = '"') → x ≠ 't' ∧ x ≠ 'r' ∧ x ≠ 'n' ∧ x ≠ '0' ∧ x ≠ 'u' := by
    rintro x (rfl | rfl | rfl | rfl)
    · decide
    · rcases hq with rfl | rfl <;> decide
    · decide
    · decide
  have hu : ∀ {a b : Str} {n m : Nat}, Nat.toDigits 16 n ++ '}' :: a = Nat.toDigits 16 m ++ '}' :: b → n = m ∧ a = b := by
    intro a b n m h
    obtain ⟨h1, h2⟩ := span_inj (fun c => c != '}') (fun c hc => by
        simp only [bne_iff_ne, ne_eq]; rintro rfl; exact hex_no_brace _ hc)
      (fun c hc => by simp only [bne_iff_ne, ne_eq]; rintro rfl; exact hex_no_brace _ hc)
      (fun c t h => by cases h; rfl) (fun c t h => by cases h; rfl) h
    exact ⟨hex_inj _ _ h1, by simpa using h2⟩
  rcases escChar_forms sty q c with ⟨h1, k⟩ | ⟨h1, k⟩ | ⟨h1, k⟩ | ⟨h1, k⟩ | ⟨h1, k⟩ | ⟨h1, k⟩ | h1 <;>
  rcases escChar_forms sty q c' with ⟨h1', k'⟩ | ⟨h1', k'⟩ | ⟨h1', k'⟩ | ⟨h1', k'⟩ | ⟨h1', k'⟩ | ⟨h1', k'⟩ | h1' <;>
  rw [h1, h1'] at h <;>
  simp only [List.cons_append, List.nil_append, List.append_assoc, List.cons.injEq, true_and, Char.reduceEq, false_and,
    and_false] at h <;>
  first
  | exact ⟨by rw [k, k'], h⟩
  | exact ⟨toNat_inj (k.trans k'.symm), h⟩
  | exact ⟨h.1, h.2⟩
  | exact ⟨toNat_inj (hu h).1, (hu h).2⟩
  | (exfalso; have := hspecial _ k'; simp [← h.1] at this; done)
  | (exfalso; have := hspecial _ k; simp [h.1] at this; done)
  | exact absurd h.1.symm k'
  | exact absurd h.1 k

theorem escStr_read {sty q} (hq : q = '"' ∨ q = '\'') : ∀ {s s' r r' : Str},
    escStr sty q s ++ q :: r = escStr sty q s' ++ q :: r' → s = s' ∧ r = r'
  | [], [], r, r', h => by simpa [escStr] using h
  | [], c :: s', r, r', h => by
    obtain ⟨x, t, h1, h2⟩ := escChar_quote (sty := sty) hq c
    rw [escStr, escStr, h1] at h
    simp only [List.nil_append, List.cons_append, List.cons.injEq] at h
    exact absurd h.1.symm h2
  | c :: s, [], r, r', h => by
    obtain ⟨x, t, h1, h2⟩ := escChar_quote (sty := sty) hq c
    rw [escStr, escStr, h1] at h
    simp only [List.nil_append, List.cons_append, List.cons.injEq] at h
    exact absurd h.1 h2
  | c :: s, c' :: s', r, r', h => by
    rw [escStr, escStr, List.append_assoc, List.append_assoc] at h
    obtain ⟨e1, e2⟩ := escChar_read hq h
    obtain ⟨e3, e4⟩ := escStr_read hq e2
    exact ⟨by rw [e1, e3], e4⟩

/-! ### the whole text -/

/-- the characters of names -/
def word (c : Char) : Bool := c.isAlpha || c == '_'

mutual
/-- What `derive(Debug)` produces. -/
inductive Ok : Dbg → Prop
  | str (s) : Ok (.str s)
  | chr (c) : Ok (.chr c)
  | num (n) : Ok (.num n)
  | tuple {name es} : (∀ c ∈ name, word c = true) → (es = [] → name ≠ []) → (∀ e ∈ es, OkEntry .tuple e) →
      Ok (.group .tuple name es)
  | list {es} : (∀ e ∈ es, OkEntry .list e) → Ok (.group .list [] es)
  | map {es} : (∀ e ∈ es, OkEntry .map e) → Ok (.group .map [] es)
  | struct {name es} : name ≠ [] → (∀ c ∈ name, word c = true) → es ≠ [] → (∀ e ∈ es, OkEntry .struct e) →
      Ok (.group .struct name es)
inductive OkEntry : Kind → Entry → Prop
  | tuple {d} : Ok d → OkEntry .tuple (.plain d)
  | list {d} : Ok d → OkEntry .list (.plain d)
  | map {k d} : Ok k → Ok d → OkEntry .map (.pair k d)
  | struct {n d} : (∀ c ∈ n, word c = true) → n ≠ [] → Ok d → OkEntry .struct (.field n d)
end

/-- what may follow a value -/
def Delim (r : Str) : Prop :=
  ∀ c t, r = c :: t → c ∈ c!",)]}:\n" ∨ (c = ' ' ∧ ∃ t', t = '}' :: t')

theorem Delim.not_word {r} (h : Delim r) : ∀ c t, r = c :: t → word c = false := by
  intro c t hr
  rcases h c t hr with h | ⟨h, _⟩
  · clear hr; revert c; decide
  · subst h; decide

theorem Delim.not_digit {r} (h : Delim r) : ∀ c t, r = c :: t → c.isDigit = false := by
  intro c t hr
  rcases h c t hr with h | ⟨h, _⟩
  · clear hr; revert c; decide
  · subst h; decide

/-- a group without its name -/
def body (sty : Style) (lay : Layout) (k : Kind) : List Entry → Str
  | [] => match k with | .list => c!"[]" | .map => c!"{}" | _ => []
  | e :: es => opening lay k ++ fmtEntry sty lay e ++ fmtEntries sty lay es ++ closing sty lay k

theorem fmt_group (sty lay k name es) : fmt sty lay (.group k name es) = name ++ body sty lay k es := by
  cases es with
  | nil => cases k <;> simp [fmt, body]
  | cons e es => cases k <;> simp [fmt, body]

/-- the kind of value a character begins -/
def sort (c : Char) : Nat := if c = '"' then 0 else if c = '\'' then 1 else if c.isDigit then 2 else 3
def sortOf : Dbg → Nat
  | .str _ => 0
  | .chr _ => 1
  | .num _ => 2
  | .group .. => 3

theorem word_facts {c : Char} (h : word c = true) :
    c.isDigit = false ∧ c ∉ c!"\"',)]}:\n ([{" := by
  constructor
  · have v : 'A'.val.toNat = 65 ∧ 'Z'.val.toNat = 90 ∧ 'a'.val.toNat = 97 ∧ 'z'.val.toNat = 122 ∧ '0'.val.toNat = 48 ∧
      '9'.val.toNat = 57 := by decide
    simp only [word, Char.isAlpha, Char.isUpper, Char.isLower, Char.isDigit, Bool.or_eq_true, Bool.and_eq_true,
      decide_eq_true_eq, beq_iff_eq, UInt32.le_iff_toNat_le, ge_iff_le] at h ⊢
    rcases h with (⟨h1, h2⟩ | ⟨h1, h2⟩) | rfl
    · simp only [Bool.and_eq_false_imp, decide_eq_true_eq, decide_eq_false_iff_not]; omega
    · simp only [Bool.and_eq_false_imp, decide_eq_true_eq, decide_eq_false_iff_not]; omega
    · decide
  · intro hc
    revert h; revert c
    decide

theorem digit_facts {c : Char} (h : c.isDigit = true) : c ∉ c!"\"',)]}:\n ([{" := by
  intro hc
  revert h; revert c
  decide

theorem fmt_head (sty lay) {d} (h : Ok d) : ∃ c t, fmt sty lay d = c :: t ∧ sort c = sortOf d ∧ c ∉ c!",)]}:\n " := by
  cases h with
  | str s => exact ⟨_, _, rfl, rfl, by decide⟩
  | chr c => exact ⟨_, _, rfl, rfl, by decide⟩
  | num n =>
    cases hd : Nat.toDigits 10 n with
    | nil => exact absurd hd Nat.toDigits_ne_nil
    | cons c t =>
      have hc : c.isDigit = true := Nat.isDigit_of_mem_toDigits (b := 10) (n := n) (by omega) (by omega) (by rw [hd]; simp)
      have := digit_facts hc
      refine ⟨c, t, by rw [fmt, hd], ?_, fun hm => this ?_⟩
      · simp only [sort, hc]
        split
        · rename_i hq; subst hq; cases hc
        · split
          · rename_i hq; subst hq; cases hc
          · rfl
      · simp only [List.mem_cons] at hm ⊢; tauto
  | @tuple name es hw hn _ =>
    rw [fmt_group]
    cases name with
    | nil =>
      cases es with
      | nil => exact absurd rfl (hn rfl)
      | cons e es => exact ⟨'(', _, rfl, rfl, by decide⟩
    | cons c name =>
      obtain ⟨h1, h2⟩ := word_facts (hw c (by simp))
      refine ⟨c, _, rfl, ?_, fun hm => h2 ?_⟩
      · simp only [sort, h1]
        split
        · rename_i hq; subst hq; simp at h2
        · split
          · rename_i hq; subst hq; simp at h2
          · rfl
      · simp only [List.mem_cons] at hm ⊢; tauto
  | @list es _ =>
    rw [fmt_group]
    cases es with
    | nil => exact ⟨'[', _, rfl, rfl, by decide⟩
    | cons e es => exact ⟨'[', _, rfl, rfl, by decide⟩
  | @map es _ =>
    rw [fmt_group]
    cases es with
    | nil => exact ⟨'{', _, rfl, rfl, by decide⟩
    | cons e es => exact ⟨'{', _, rfl, rfl, by decide⟩
  | @struct name es hn hw _ _ =>
    rw [fmt_group]
    cases name with
    | nil => exact absurd rfl hn
    | cons c name =>
      obtain ⟨h1, h2⟩ := word_facts (hw c (by simp))
      refine ⟨c, _, rfl, ?_, fun hm => h2 ?_⟩
      · simp only [sort, h1]
        split
        · rename_i hq; subst hq; simp at h2
        · split
          · rename_i hq; subst hq; simp at h2
          · rfl
      · simp only [List.mem_cons] at hm ⊢; tauto

theorem entry_head (sty lay) {k e} (h : OkEntry k e) : ∃ c t, fmtEntry sty lay e = c :: t ∧ c ∉ c!",)]}:\n " := by
  cases h with
  | tuple h => obtain ⟨c, t, h1, _, h2⟩ := fmt_head sty (lay.map (· + 1)) h; exact ⟨c, t, by rw [fmtEntry, h1], h2⟩
  | list h => obtain ⟨c, t, h1, _, h2⟩ := fmt_head sty (lay.map (· + 1)) h; exact ⟨c, t, by rw [fmtEntry, h1], h2⟩
  | map h _ =>
    obtain ⟨c, t, h1, _, h2⟩ := fmt_head sty (lay.map (· + 1)) h
    exact ⟨c, _, by rw [fmtEntry, h1]; rfl, h2⟩
  | @struct n d hw hn _ =>
    cases n with
    | nil => exact absurd rfl hn
    | cons c n =>
      refine ⟨c, _, rfl, fun hm => (word_facts (hw c (by simp))).2 ?_⟩
      simp only [List.mem_cons] at hm ⊢; tauto

theorem body_delim (sty lay k es) (r : Str) (hr : Delim r) : ∀ c t, body sty lay k es ++ r = c :: t → word c = false := by
  intro c t h
  cases es with
  | nil =>
    cases k <;> simp only [body, List.nil_append, List.cons_append, List.cons.injEq] at h
    · exact hr.not_word c t h
    · rw [← h.1]; decide
    · rw [← h.1]; decide
    · exact hr.not_word c t h
  | cons e es =>
    cases k <;> cases lay <;>
      simp only [body, opening, List.nil_append, List.cons_append, List.cons.injEq, Option.isNone, if_true, if_false,
        Bool.false_eq_true, Option.map_some, Option.map_none] at h <;>
      (rw [← h.1]; decide)

theorem sep_ne_close (sty lay k) (a b : Str) : separator lay ++ a ≠ closing sty lay k ++ b := by
  intro h
  cases lay with
  | none => cases k <;> simp [separator, closing, newline] at h
  | some n =>
    cases hc : sty.comma with
    | false => cases k <;> simp [separator, closing, newline, hc] at h
    | true =>
      have e : indent (n + 1) = indent n ++ c!"    " := by
        unfold indent
        rw [show 4 * (n + 1) = 4 * n + 4 by omega, ← List.replicate_append_replicate]; rfl
      cases k <;> simp [separator, closing, newline, hc, e] at h

theorem sep_delim (lay) (a : Str) : Delim (separator lay ++ a) := by
  intro c t h
  cases lay <;> simp only [separator, Option.isNone, if_true, if_false, Bool.false_eq_true, List.cons_append,
    List.cons.injEq] at h <;> (rw [← h.1]; left; decide)

theorem close_delim (sty lay k) (a : Str) : Delim (closing sty lay k ++ a) := by
  intro c t h
  cases lay with
  | none =>
    cases k <;> simp only [closing, newline, Option.isSome, Bool.false_and, Bool.false_eq_true, if_false, Option.isNone,
      if_true, List.nil_append, List.cons_append, List.cons.injEq] at h
    · rw [← h.1]; left; decide
    · rw [← h.1]; left; decide
    · rw [← h.1]; left; decide
    · exact .inr ⟨h.1.symm, _, h.2.symm⟩
  | some n =>
    cases hc : sty.comma <;>
      simp only [closing, newline, Option.isSome, Bool.true_and, hc, Bool.false_eq_true, if_false, if_true,
        List.nil_append, List.cons_append, List.cons.injEq] at h <;> (rw [← h.1]; left; decide)

theorem entries_delim (sty lay k es) (a : Str) : Delim (fmtEntries sty lay es ++ (closing sty lay k ++ a)) := by
  cases es with
  | nil => exact close_delim sty lay k a
  | cons e es => rw [fmtEntries, List.append_assoc, List.append_assoc]; exact sep_delim lay _

theorem colon_delim (a : Str) : Delim (c!": " ++ a) := by
  intro c t h
  simp only [List.cons_append, List.cons.injEq] at h
  rw [← h.1]; left; decide

mutual
theorem read (sty) : ∀ (d d' : Dbg) (lay : Layout) {r r' : Str}, Ok d → Ok d' → Delim r → Delim r' →
    fmt sty lay d ++ r = fmt sty lay d' ++ r' → d = d' ∧ r = r'
  | d, d', lay, r, r', h, h', hr, hr', heq => by
    obtain ⟨c, t, e1, e2, _⟩ := fmt_head sty lay h
    obtain ⟨c', t', e1', e2', _⟩ := fmt_head sty lay h'
    have hs : sortOf d = sortOf d' := by
      rw [e1, e1'] at heq
      simp only [List.cons_append, List.cons.injEq] at heq
      rw [← e2, ← e2', heq.1]
    clear e1 e2 e1' e2'
    match d, d', hs, h, h', heq with
    | .str s, .str s', _, _, _, heq =>
      simp only [fmt, List.cons_append, List.nil_append, List.append_assoc, List.cons.injEq, true_and] at heq
      obtain ⟨h1, h2⟩ := escStr_read (.inl rfl) heq
      exact ⟨by rw [h1], h2⟩
    | .chr c, .chr c', _, _, _, heq =>
      simp only [fmt, List.cons_append, List.nil_append, List.append_assoc, List.cons.injEq, true_and] at heq
      obtain ⟨h1, h2⟩ := escChar_read (.inr rfl) heq
      simp only [List.cons.injEq, true_and] at h2
      exact ⟨by rw [h1], h2⟩
    | .num n, .num n', _, _, _, heq =>
      simp only [fmt] at heq
      obtain ⟨h1, h2⟩ := span_inj Char.isDigit (fun c hc => Nat.isDigit_of_mem_toDigits (by omega) (by omega) hc)
        (fun c hc => Nat.isDigit_of_mem_toDigits (by omega) (by omega) hc) hr.not_digit hr'.not_digit heq
      exact ⟨by rw [dec_inj h1], h2⟩
    | .group k name es, .group k' name' es', _, h, h', heq =>
      have hw : ∀ {k name es}, Ok (.group k name es) → ∀ c ∈ name, word c = true := by
        intro k name es h
        cases h <;> first | assumption | simp
      rw [fmt_group, fmt_group, List.append_assoc, List.append_assoc] at heq
      obtain ⟨hn, hb⟩ := span_inj word (hw h) (hw h') (body_delim sty lay k es r hr) (body_delim sty lay k' es' r' hr') heq
      subst hn
      have hok : ∀ {k name es}, Ok (.group k name es) → ∀ e ∈ es, OkEntry k e := by
        intro k name es h
        cases h <;> assumption
      have ho := hok h
      have ho' := hok h'
      have nd : ∀ {r : Str}, Delim r → ∀ c t, c ∈ c!"([{" → r ≠ c :: t := by
        intro r hr c t hc he
        rcases hr c t he with h1 | ⟨h1, _⟩
        · revert h1; clear he; revert c; decide
        · subst h1; revert hc; decide
      have nd' : ∀ {r : Str}, Delim r → ∀ t, r ≠ ' ' :: '{' :: t := by
        intro r hr t he
        rcases hr _ _ he with h1 | ⟨_, t', h1⟩
        · revert h1; decide
        · simp at h1
      match es, es', h, h', hb, ho, ho' with
      | [], [], h, h', hb, _, _ =>
        cases k <;> cases k' <;> simp only [body, List.cons_append, List.nil_append] at hb <;>
          first
          | exact ⟨rfl, hb⟩
          | exact ⟨rfl, by simpa using hb⟩
          | (exfalso; exact nd hr _ _ (by decide) hb)
          | (exfalso; exact nd hr' _ _ (by decide) hb.symm)
          | (exfalso; simp at hb)
          | (exfalso; cases h; contradiction)
          | (exfalso; cases h'; contradiction)
      | [], e :: es', h, h', hb, _, ho' =>
        exfalso
        obtain ⟨c, t, e1, e2⟩ := entry_head sty lay (ho' e (by simp))
        cases k <;> cases k' <;> cases lay <;>
          simp only [body, opening, newline, e1, List.cons_append, List.nil_append, List.append_assoc, Option.isNone, if_true, if_false,
            Bool.false_eq_true, Option.map_some, Option.map_none] at hb <;>
          first
          | exact nd hr _ _ (by decide) hb
          | exact nd' hr _ hb
          | (simp at hb; done)
          | (simp only [List.cons.injEq, true_and] at hb; simp [← hb.1] at e2)
      | e :: es, [], h, h', hb, ho, _ =>
        exfalso
        obtain ⟨c, t, e1, e2⟩ := entry_head sty lay (ho e (by simp))
        cases k <;> cases k' <;> cases lay <;>
          simp only [body, opening, newline, e1, List.cons_append, List.nil_append, List.append_assoc, Option.isNone, if_true, if_false,
            Bool.false_eq_true, Option.map_some, Option.map_none] at hb <;>
          first
          | exact nd hr' _ _ (by decide) hb.symm
          | exact nd' hr' _ hb.symm
          | (simp at hb; done)
          | (simp only [List.cons.injEq, true_and] at hb; simp [hb.1] at e2)
      | e :: es, e' :: es', h, h', hb, ho, ho' =>
        have hk : k = k' := by
          cases k <;> cases k' <;> cases lay <;> first | rfl | (exfalso; simp [body, opening] at hb)
        subst hk
        simp only [body, List.append_assoc, List.append_cancel_left_eq] at hb
        obtain ⟨h1, h2⟩ := readEntry sty e e' lay k (ho e (by simp)) (ho' e' (by simp))
          (entries_delim sty lay k es r) (entries_delim sty lay k es' r') hb
        obtain ⟨h3, h4⟩ := readEntries sty es es' lay k (fun x hx => ho x (by simp [hx])) (fun x hx => ho' x (by simp [hx])) h2
        exact ⟨by rw [h1, h3], h4⟩
theorem readEntry (sty) : ∀ (e e' : Entry) (lay : Layout) (k : Kind) {r r' : Str}, OkEntry k e → OkEntry k e' →
    Delim r → Delim r' → fmtEntry sty lay e ++ r = fmtEntry sty lay e' ++ r' → e = e' ∧ r = r'
  | .plain d, e', lay, k, r, r', h, h', hr, hr', heq => by
    have : ∃ d', e' = .plain d' ∧ Ok d' ∧ Ok d := by
      cases h with
      | tuple h => cases h' with | tuple h' => exact ⟨_, rfl, h', h⟩
      | list h => cases h' with | list h' => exact ⟨_, rfl, h', h⟩
    obtain ⟨d', rfl, h', h⟩ := this
    simp only [fmtEntry] at heq
    obtain ⟨h1, h2⟩ := read sty d d' _ h h' hr hr' heq
    exact ⟨by rw [h1], h2⟩
  | .field n d, e', lay, k, r, r', h, h', hr, hr', heq => by
    cases h with
    | struct hw hn h =>
      cases h' with
      | struct hw' hn' h' =>
        simp only [fmtEntry, List.append_assoc] at heq
        obtain ⟨h1, h2⟩ := span_inj word hw hw' (fun c t h => by cases h; decide) (fun c t h => by cases h; decide) heq
        simp only [List.append_cancel_left_eq] at h2
        obtain ⟨h3, h4⟩ := read sty d _ _ h h' hr hr' h2
        exact ⟨by rw [h1, h3], h4⟩
  | .pair key d, e', lay, k, r, r', h, h', hr, hr', heq => by
    cases h with
    | map hk h =>
      cases h' with
      | map hk' h' =>
        simp only [fmtEntry, List.append_assoc] at heq
        obtain ⟨h1, h2⟩ := read sty key _ _ hk hk' (colon_delim _) (colon_delim _) heq
        simp only [List.append_cancel_left_eq] at h2
        obtain ⟨h3, h4⟩ := read sty d _ _ h h' hr hr' h2
        exact ⟨by rw [h1, h3], h4⟩
theorem readEntries (sty) : ∀ (es es' : List Entry) (lay : Layout) (k : Kind) {r r' : Str}, (∀ e ∈ es, OkEntry k e) →
    (∀ e ∈ es', OkEntry k e) →
    fmtEntries sty lay es ++ (closing sty lay k ++ r) = fmtEntries sty lay es' ++ (closing sty lay k ++ r') → es = es' ∧ r = r'
  | [], [], lay, k, r, r', _, _, heq => by
    simp only [fmtEntries, List.nil_append, List.append_cancel_left_eq] at heq
    exact ⟨rfl, heq⟩
  | [], e' :: es', lay, k, r, r', _, _, heq => by
    simp only [fmtEntries, List.nil_append, List.append_assoc] at heq
    exact absurd heq.symm (sep_ne_close sty lay k _ _)
  | e :: es, [], lay, k, r, r', _, _, heq => by
    simp only [fmtEntries, List.nil_append, List.append_assoc] at heq
    exact absurd heq (sep_ne_close sty lay k _ _)
  | e :: es, e' :: es', lay, k, r, r', ho, ho', heq => by
    simp only [fmtEntries, List.append_assoc, List.append_cancel_left_eq] at heq
    obtain ⟨h1, h2⟩ := readEntry sty e e' lay k (ho e (by simp)) (ho' e' (by simp))
      (entries_delim sty lay k es r) (entries_delim sty lay k es' r') heq
    obtain ⟨h3, h4⟩ := readEntries sty es es' lay k (fun x hx => ho x (by simp [hx])) (fun x hx => ho' x (by simp [hx])) h2
    exact ⟨by rw [h1, h3], h4⟩
end

theorem fmt_inj {sty lay d d'} (h : Ok d) (h' : Ok d') (he : fmt sty lay d = fmt sty lay d') : d = d' :=
  (read sty d d' lay (r := []) (r' := []) h h' (fun _ _ h => by cases h) (fun _ _ h => by cases h) (by rw [he])).1

end Debug
end DP
