/-
One PEG text after another.
-/
import Verif.Proofs.Tokens
import Verif.Proofs.SynInv

namespace DP
open Spec Spec.Syntax

/-- `\r` at the end of a gap becomes `\r\n` -/
def withLF : Gap → Gap
  | .eol .cr => .eol .crlf
  | .line b .cr => .line b .crlf
  | g => g

/-- gaps after gaps; `\r` and `\n` become one end of line -/
def joinGaps : Gaps → Gaps → Gaps
  | [], b => b
  | [g], b => if g.endsCR = true ∧ b.head? = some (.eol .lf) then withLF g :: b.tail else g :: b
  | g :: h :: a, b => g :: joinGaps (h :: a) b

theorem withLF_str {g : Gap} (h : g.endsCR = true) : (withLF g).str = g.str ++ c!"\n" := by
  cases g with
  | eol e => cases e <;> simp_all [Gap.endsCR, withLF, Gap.str, Eol.str]
  | line b e => cases e <;> simp_all [Gap.endsCR, withLF, Gap.str, Eol.str]
  | _ => simp [Gap.endsCR] at h

theorem withLF_ok {g : Gap} (h : g.OK) : (withLF g).OK := by
  cases g with
  | eol e => cases e <;> exact h
  | line b e => cases e <;> exact h
  | _ => exact h

theorem withLF_endsCR (g : Gap) : (withLF g).endsCR = false := by
  cases g with
  | eol e => cases e <;> rfl
  | line b e => cases e <;> rfl
  | _ => rfl

theorem withLF_ne {g : Gap} (h : g.endsCR = true) : withLF g ≠ .eol .lf := by
  cases g with
  | eol e => cases e <;> simp_all [Gap.endsCR, withLF]
  | line b e => cases e <;> simp [withLF]
  | _ => simp [withLF]

theorem withLF_isEol (g : Gap) : (withLF g).isEol = g.isEol := by
  cases g with
  | eol e => cases e <;> rfl
  | line b e => cases e <;> rfl
  | _ => rfl

theorem gapsOK_head {g : Gap} {gs : Gaps} (h : GapsOK (g :: gs)) : g.OK := by
  cases gs with
  | nil => exact h
  | cons => exact h.1

theorem gapsOK_tail {g : Gap} {gs : Gaps} (h : GapsOK (g :: gs)) : GapsOK gs := by
  cases gs with
  | nil => trivial
  | cons => exact h.2.2

theorem gapsOK_mk {g : Gap} {gs : Gaps} (h : g.OK) (hs : GapsOK gs) (hj : g.endsCR = true → gs.head? ≠ some (.eol .lf)) : GapsOK (g :: gs) := by
  cases gs with
  | nil => exact h
  | cons k gs => exact ⟨h, fun hh => hj hh.1 (by rw [hh.2]; rfl), hs⟩

theorem joinGaps_str : ∀ a b, gapsStr (joinGaps a b) = gapsStr a ++ gapsStr b
  | [], b => rfl
  | [g], b => by
    rw [joinGaps]
    split
    · next h =>
      cases b with
      | nil => simp at h
      | cons k b =>
        have hk : k = .eol .lf := by simpa using h.2
        subst hk
        rw [List.tail_cons, gapsStr, withLF_str h.1, gapsStr, gapsStr, gapsStr, List.append_nil, List.append_assoc]
        rfl
    · simp [gapsStr]
  | g :: h :: a, b => by
    have ih := joinGaps_str (h :: a) b
    rw [joinGaps, gapsStr, ih, ← List.append_assoc]
    rfl

theorem joinGaps_head : ∀ a b, a ≠ [] → (joinGaps a b).head? = some (.eol .lf) → a.head? = some (.eol .lf)
  | [], b, h, _ => absurd rfl h
  | [g], b, _, h => by
    rw [joinGaps] at h
    split at h
    · next h1 =>
      exfalso
      exact withLF_ne h1.1 (by simpa using h)
    · simpa using h
  | g :: k :: a, b, _, h => by simpa [joinGaps] using h

theorem joinGaps_ok : ∀ a b, GapsOK a → GapsOK b → GapsOK (joinGaps a b)
  | [], b, _, hb => hb
  | [g], b, ha, hb => by
    rw [joinGaps]
    split
    · next h =>
      refine gapsOK_mk (withLF_ok ha) ?_ (fun hh => by rw [withLF_endsCR] at hh; cases hh)
      cases b with
      | nil => trivial
      | cons k b => exact gapsOK_tail hb
    · next h => exact gapsOK_mk ha hb (fun h1 h2 => h ⟨h1, h2⟩)
  | g :: k :: a, b, ha, hb => by
    rw [joinGaps]
    refine gapsOK_mk ha.1 (joinGaps_ok (k :: a) b ha.2.2 hb) ?_
    intro h1 h2
    have h3 := joinGaps_head (k :: a) b (by simp) h2
    exact ha.2.1 ⟨h1, by simpa using h3⟩

theorem joinGaps_ne {a : Gaps} (h : a ≠ []) (b : Gaps) : joinGaps a b ≠ [] := by
  cases a with
  | nil => exact absurd rfl h
  | cons g a =>
    cases a with
    | nil => rw [joinGaps]; split <;> simp
    | cons k a => simp [joinGaps]

/-- more blanks and comments after the end of a rule -/
theorem term_join (t : Term) (b : Gaps) : ∃ t' : Term, t'.gaps = joinGaps t.gaps b ∧ t'.before = t.before := by
  obtain ⟨pre, e, after⟩ := t
  show ∃ t' : Term, t'.gaps = joinGaps (pre ++ .eol e :: after) b ∧ t'.before = pre
  have key : ∀ pre : Gaps, ∃ e' after', joinGaps (pre ++ .eol e :: after) b = pre ++ .eol e' :: after' := by
    intro pre
    induction pre with
    | nil =>
      cases after with
      | nil =>
        rw [List.nil_append, joinGaps]
        split
        · next h =>
          cases e with
          | cr => exact ⟨_, _, rfl⟩
          | lf => simp [Gap.endsCR] at h
          | crlf => simp [Gap.endsCR] at h
        · exact ⟨_, _, rfl⟩
      | cons k after => exact ⟨e, joinGaps (k :: after) b, by simp [joinGaps]⟩
    | cons g pre ih =>
      obtain ⟨e', after', h⟩ := ih
      refine ⟨e', after', ?_⟩
      rw [List.cons_append, List.cons_append, ← h]
      cases hx : pre ++ Gap.eol e :: after with
      | nil => simp at hx
      | cons k ks => rw [joinGaps]
  obtain ⟨e', after', h⟩ := key pre
  exact ⟨⟨pre, e', after'⟩, by rw [h]; rfl, rfl⟩

theorem term_more {t : Term} {b : Gaps} (h : t.OK) (hb : GapsOK b) : ∃ t' : Term, t'.OK ∧ gapsStr t'.gaps = gapsStr t.gaps ++ gapsStr b := by
  obtain ⟨t', h1, h2⟩ := term_join t b
  refine ⟨t', ⟨?_, ?_⟩, ?_⟩
  · rw [h1]; exact joinGaps_ok _ _ h.1 hb
  · rw [h2]; exact h.2
  · rw [h1, joinGaps_str]

/-- what is said about two documents in a row -/
structure Joined (a b c : Defs) : Prop where
  ok : c.OK
  rules : ∀ R, defsRules R c = (defsRules R a).bind fun R' => defsRules R' b
  fault : c.fault = first a.fault b.fault
  tokens : c.tokens = a.tokens ++ b.tokens

theorem first_assoc (x y z : Option Complaint) : first (first x y) z = first x (first y z) := by cases x <;> rfl

theorem def_more {d : Def} {gs : Gaps} (h : d.OK) (hg : GapsOK gs) : ∃ d' : Def, d'.OK ∧ d'.str = d.str ++ gapsStr gs ∧
    (∀ R, defRules R d' = defRules R d) ∧ d'.fault = d.fault ∧ d'.tokens = d.tokens := by
  cases d with
  | rule n g1 g2 e t =>
    rw [Def.OK] at h
    obtain ⟨t', h1, h2⟩ := term_more h.2.2.2.2 hg
    refine ⟨.rule n g1 g2 e t', ?_, ?_, fun R => rfl, rfl, rfl⟩
    · rw [Def.OK]; exact ⟨h.1, h.2.1, h.2.2.1, h.2.2.2.1, h1⟩
    · rw [Def.str, Def.str, h2]; simp
  | module n g1 g2 ds t =>
    rw [Def.OK] at h
    obtain ⟨t', h1, h2⟩ := term_more h.2.2.2.2 hg
    refine ⟨.module n g1 g2 ds t', ?_, ?_, fun R => rfl, rfl, rfl⟩
    · rw [Def.OK]; exact ⟨h.1, h.2.1, h.2.2.1, h.2.2.2.1, h1⟩
    · rw [Def.str, Def.str, h2]; simp

theorem defs_join : ∀ (a : Defs) (gs : Gaps) (b : Defs), a.OK → GapsOK gs → b.OK →
    ∃ c, Joined a b c ∧ c.str = a.str ++ (gapsStr gs ++ b.str)
  | .one d, gs, b, ha, hg, hb => by
    rw [Defs.OK] at ha
    obtain ⟨d', h1, h2, h3, h4, h5⟩ := def_more ha hg
    refine ⟨.cons d' b, ⟨?_, ?_, ?_, ?_⟩, ?_⟩
    · rw [Defs.OK]; exact ⟨h1, hb⟩
    · intro R; rw [defsRules.eq_2, h3, defsRules.eq_1]
    · rw [Defs.fault.eq_2, h4, Defs.fault.eq_1]
    · rw [Defs.tokens.eq_2, h5, Defs.tokens.eq_1]
    · rw [Defs.str.eq_2, h2, Defs.str.eq_1, List.append_assoc]
  | .cons d a, gs, b, ha, hg, hb => by
    rw [Defs.OK] at ha
    obtain ⟨c, h1, h2⟩ := defs_join a gs b ha.2 hg hb
    refine ⟨.cons d c, ⟨?_, ?_, ?_, ?_⟩, ?_⟩
    · rw [Defs.OK]; exact ⟨ha.1, h1.ok⟩
    · intro R
      rw [defsRules, defsRules]
      cases defRules R d with
      | none => rfl
      | some R' => exact h1.rules R'
    · rw [Defs.fault, h1.fault, Defs.fault, first_assoc]
    · rw [Defs.tokens, h1.tokens, Defs.tokens, List.append_assoc]
    · rw [Defs.str, h2, Defs.str, List.append_assoc]

theorem doc_join {a b : Doc} (ha : a.OK) (hb : b.OK) : ∃ c : Doc, c.OK ∧ c.str = a.str ++ b.str ∧ Joined a.defs b.defs c.defs := by
  obtain ⟨c, h1, h2⟩ := defs_join a.defs b.before b.defs ha.2 hb.1 hb.2
  exact ⟨⟨a.before, c⟩, ⟨ha.1, h1.ok⟩, by rw [Doc.str, h2, Doc.str, Doc.str, List.append_assoc], h1⟩

theorem defs_more : ∀ {a : Defs} {gs : Gaps}, a.OK → GapsOK gs → ∃ c : Defs, c.OK ∧ c.str = a.str ++ gapsStr gs ∧ c.tokens = a.tokens
  | .one d, gs, ha, hg => by
    rw [Defs.OK] at ha
    obtain ⟨d', h1, h2, _, _, h5⟩ := def_more ha hg
    exact ⟨.one d', by rw [Defs.OK]; exact h1, by rw [Defs.str, h2, Defs.str], by rw [Defs.tokens, h5, Defs.tokens]⟩
  | .cons d a, gs, ha, hg => by
    rw [Defs.OK] at ha
    obtain ⟨c, h1, h2, h3⟩ := defs_more ha.2 hg
    exact ⟨.cons d c, by rw [Defs.OK]; exact ⟨ha.1, h1⟩, by rw [Defs.str, h2, Defs.str, List.append_assoc],
      by rw [Defs.tokens, h3, Defs.tokens]⟩

end DP
