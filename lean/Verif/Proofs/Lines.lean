/-
`{:#?}` line by line.
-/
import Verif.Spec.Lines

namespace DP
open Debug Spec Spec.Lines

/-- lines, the later ones at depth `n` -/
def textAt (n : Nat) : List Str → Str
  | [] => []
  | [l] => l
  | l :: ls => l ++ newline (some n) ++ textAt n ls

theorem textAt_cons {n l ls} (h : ls ≠ []) : textAt n (l :: ls) = l ++ newline (some n) ++ textAt n ls := by
  cases ls with
  | nil => exact absurd rfl h
  | cons => rfl

theorem textAt_append {n} : ∀ {ls ms : List Str}, ls ≠ [] → ms ≠ [] → textAt n (ls ++ ms) = textAt n ls ++ newline (some n) ++ textAt n ms
  | [], _, h, _ => absurd rfl h
  | [l], ms, _, h => by rw [List.singleton_append, textAt_cons h]; rfl
  | l :: l' :: ls, ms, _, h => by
    rw [List.cons_append, textAt_cons (by simp), textAt_append (ls := l' :: ls) (by simp) h, textAt_cons (ls := l' :: ls) (by simp)]
    simp only [List.append_assoc]

theorem newline_succ (n : Nat) : newline (some n) ++ c!"    " = newline (some (n + 1)) := by
  have : c!"    " = List.replicate 4 ' ' := rfl
  simp only [newline, indent, Nat.mul_add, Nat.mul_one, this, List.cons_append, List.replicate_append_replicate]

theorem textAt_deeper {n} : ∀ {ls : List Str}, ls ≠ [] → textAt n (deeper ls) = c!"    " ++ textAt (n + 1) ls
  | [], h => absurd rfl h
  | [l], _ => rfl
  | l :: l' :: ls, _ => by
    have ih := textAt_deeper (n := n) (ls := l' :: ls) (by simp)
    have e : deeper (l :: l' :: ls) = (c!"    " ++ l) :: deeper (l' :: ls) := rfl
    rw [e, textAt_cons (by simp [deeper]), ih, textAt_cons (ls := l' :: ls) (by simp), ← newline_succ]
    simp only [List.append_assoc]

theorem textAt_before {n a} : ∀ {ls : List Str}, ls ≠ [] → textAt n (before a ls) = a ++ textAt n ls
  | [], h => absurd rfl h
  | [l], _ => rfl
  | l :: l' :: ls, _ => by
    rw [before, textAt_cons (ls := l' :: ls) (by simp), textAt_cons (ls := l' :: ls) (by simp)]
    simp only [List.append_assoc]

theorem after_ne {b ls} : after b ls ≠ [] := by
  cases ls with
  | nil => simp [after]
  | cons l ls => cases ls <;> simp [after]

theorem textAt_after {n b} : ∀ {ls : List Str}, ls ≠ [] → textAt n (after b ls) = textAt n ls ++ b
  | [], h => absurd rfl h
  | [l], _ => rfl
  | l :: l' :: ls, _ => by
    rw [after, textAt_cons after_ne, textAt_after (by simp), textAt_cons (ls := l' :: ls) (by simp)]
    · simp only [List.append_assoc]
    · simp

theorem glue_ne {ls ms} (h : ms ≠ []) : glue ls ms ≠ [] := by
  cases ls with
  | nil => simpa [glue] using h
  | cons l ls =>
    cases ls with
    | nil => cases ms <;> simp [glue, before]
    | cons => simp [glue]

theorem textAt_glue {n} : ∀ {ls ms : List Str}, ls ≠ [] → ms ≠ [] → textAt n (glue ls ms) = textAt n ls ++ textAt n ms
  | [], _, h, _ => absurd rfl h
  | [l], ms, _, h => textAt_before h
  | l :: l' :: ls, ms, _, h => by
    rw [glue, textAt_cons (glue_ne h), textAt_glue (by simp) h, textAt_cons (ls := l' :: ls) (by simp)]
    · simp only [List.append_assoc]
    · simp

theorem before_ne {a ls} : before a ls ≠ [] := by cases ls <;> simp [before]

mutual
theorem fmt_lines (sty : Style) : ∀ (d : Dbg) (n : Nat), fmt sty (some n) d = textAt n (lines sty d) ∧ lines sty d ≠ []
  | .str s, n => by simp [fmt, lines, textAt, debug]
  | .chr s, n => by simp [fmt, lines, textAt, debug]
  | .num s, n => by simp [fmt, lines, textAt, debug]
  | .group k name [], n => by cases k <;> simp [fmt, lines, textAt, debug]
  | .group k name (e :: es), n => by
    have h := fmt_entries sty (e :: es) n (by simp)
    refine ⟨?_, by simp [lines]⟩
    have hd : deeper (linesOfEntries sty (e :: es)) ≠ [] := by simpa [deeper] using h.2
    rw [lines, List.cons_append, textAt_cons (by simp), textAt_append hd (by simp), textAt_deeper h.2, ← h.1]
    have hf : fmtEntries sty (some n) (e :: es) = c!"," ++ newline (some (n + 1)) ++ fmtEntry sty (some n) e ++ fmtEntries sty (some n) es := by
      rw [fmtEntries]; simp [separator]
    have hs := newline_succ n
    cases k <;>
      simp only [fmt, opening, closing, openText, closeText, textAt, Option.map_some, Option.isNone_some, Option.isSome_some,
        Bool.true_and, Bool.false_eq_true, if_false, ← hs, List.append_assoc]
theorem fmt_entries (sty : Style) : ∀ (es : List Entry) (n : Nat) , es ≠ [] →
    (match es with
      | [] => []
      | e :: es => fmtEntry sty (some n) e ++ fmtEntries sty (some n) es ++ (if sty.comma then c!"," else [])) =
      textAt (n + 1) (linesOfEntries sty es) ∧ linesOfEntries sty es ≠ []
  | [], _, h => absurd rfl h
  | [e], n, _ => by
    obtain ⟨h1, h2⟩ := fmt_entry sty e n
    cases hc : sty.comma with
    | false => simp [linesOfEntries, hc, h1, fmtEntries, h2]
    | true => simp [linesOfEntries, hc, h1, fmtEntries, textAt_after h2, after_ne]
  | e :: e' :: es, n, _ => by
    obtain ⟨h1, h2⟩ := fmt_entry sty e n
    obtain ⟨h3, h4⟩ := fmt_entries sty (e' :: es) n (by simp)
    rw [linesOfEntries]
    simp only [List.isEmpty_cons, Bool.false_and, Bool.false_eq_true, if_false]
    refine ⟨?_, by simp [after_ne]⟩
    rw [textAt_append after_ne h4, textAt_after h2, ← h1, ← h3, fmtEntries]
    simp [separator]
theorem fmt_entry (sty : Style) : ∀ (e : Entry) (n : Nat), fmtEntry sty (some n) e = textAt (n + 1) (linesOfEntry sty e) ∧ linesOfEntry sty e ≠ []
  | .plain d, n => by rw [fmtEntry, linesOfEntry]; exact fmt_lines sty d (n + 1)
  | .field m d, n => by
    obtain ⟨h1, h2⟩ := fmt_lines sty d (n + 1)
    rw [fmtEntry, linesOfEntry, textAt_before h2, ← h1]
    exact ⟨rfl, before_ne⟩
  | .pair k d, n => by
    obtain ⟨h1, h2⟩ := fmt_lines sty d (n + 1)
    obtain ⟨h3, h4⟩ := fmt_lines sty k (n + 1)
    rw [fmtEntry, linesOfEntry, textAt_glue after_ne h2, textAt_after h4, ← h1, ← h3]
    exact ⟨rfl, glue_ne h2⟩
end

theorem textAt_zero : ∀ ls : List Str, textAt 0 ls = text ls
  | [] => rfl
  | [_] => rfl
  | l :: l' :: ls => by rw [textAt_cons (by simp), textAt_zero (l' :: ls)]; simp [newline, indent, text]

theorem escape_escChar (sty : Style) (c : Char) : Escape sty c (escChar sty '"' c) := by
  by_cases h1 : c = '\t'
  · subst h1; exact .tab
  by_cases h2 : c = '\r'
  · subst h2; exact .cr
  by_cases h3 : c = '\n'
  · subst h3; exact .lf
  by_cases h4 : c = '\\'
  · subst h4; exact .backslash
  by_cases h5 : c = '"'
  · subst h5; exact .quote
  by_cases h6 : c = '\''
  · subst h6
    cases h : sty.bothQuotes with
    | true => have := Escape.single_escaped h; simpa [escChar, h] using this
    | false => have := Escape.single h; simpa [escChar, h, shown] using this
  by_cases h7 : c.toNat = 0
  · have : c = '\x00' := Char.ext (UInt32.toNat_inj.mp h7)
    subst this
    cases h : sty.nul with
    | true => have := Escape.nul h; simpa [escChar, h] using this
    | false => have := Escape.nul_code h; simpa [escChar, h, shown, show Nat.toDigits 16 0 = c!"0" from by decide] using this
  have e : escChar sty '"' c = if shown sty c then [c] else c!"\\u{" ++ Nat.toDigits 16 c.toNat ++ c!"}" := by
    simp [escChar, h1, h2, h3, h4, h5, h6, h7]
  rw [e]
  by_cases h8 : c.toNat < 128
  · by_cases h9 : 32 ≤ c.toNat ∧ c.toNat ≠ 127
    · rw [if_pos (by simp [shown, h8, h9])]
      exact .printable c h9.1 (by omega) h4 h5 h6
    · rw [if_neg (by simp only [shown, h8, if_true, Bool.and_eq_true, decide_eq_true_eq]; exact h9)]
      exact .control c (by omega) h1 h2 h3
  · cases h : sty.raw c with
    | true => rw [if_pos (by simp [shown, h8, h])]; exact .beyond c (by omega) h
    | false => rw [if_neg (by simp [shown, h8, h])]; exact .beyond_code c (by omega) h

theorem escapes_escStr (sty : Style) : ∀ s, Escapes sty s (escStr sty '"' s)
  | [] => .nil
  | c :: s => .cons (escape_escChar sty c) (escapes_escStr sty s)

end DP
