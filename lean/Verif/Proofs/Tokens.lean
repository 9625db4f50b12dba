/-
The layout of a PEG text does not matter: every document can be spread over lines, one token per line.
-/
import Verif.Spec.Tokens
import Verif.Proofs.SynDoc

namespace DP
open Spec Spec.Syntax

/-- an end of line -/
def nl : Gaps := [.eol .lf]

def nlTerm : Term := ⟨[], .lf, []⟩

namespace Spec.Syntax
mutual
def Atom.spread : Atom → Atom
  | .lit l => .lit l
  | .cls cs rs => .cls cs rs
  | .ref n => .ref n
  | .dot => .dot
  | .par _ e _ => .par nl e.spread nl
def Item.spread : Item → Item
  | .plain a => .plain a.spread
  | .star a => .star a.spread
  | .plus a => .plus a.spread
  | .opt a => .opt a.spread
  | .not a => .not a.spread
def Seq.spread : Seq → Seq
  | .err _ _ l _ => .err nl nl l nl
  | .item i t => .item i.spread t.spread
def Tail.spread : Tail → Tail
  | .nil => .nil
  | .item _ i t => .item nl i.spread t.spread
  | .err _ _ _ l _ t => .err nl nl nl l nl t.spread
def Alt.spread : Alt → Alt
  | .one s => .one s.spread
  | .cons s _ _ a => .cons s.spread nl nl a.spread
end

mutual
def Def.spread : Def → Def
  | .rule n _ _ e _ => .rule n nl nl e.spread nlTerm
  | .module n _ _ ds _ => .module n nl nl ds.spread nlTerm
def Defs.spread : Defs → Defs
  | .one d => .one d.spread
  | .cons d ds => .cons d.spread ds.spread
end

def Doc.spread (d : Doc) : Doc := ⟨[], d.defs.spread⟩
end Spec.Syntax

theorem nl_ok : GapsOK nl := by decide

theorem looks_spread {i : Syntax.Item} {t : Syntax.Tail} (h : LooksLikeError i.spread t.spread) : LooksLikeError i t := by
  cases i with
  | plain a =>
    cases a with
    | ref n =>
      cases t with
      | item g j t =>
        rw [Item.spread, Atom.spread, Tail.spread] at h
        refine ⟨h.1, ?_⟩
        have h2 := h.2
        clear h
        revert h2
        have key : ∀ a : Syntax.Atom, (∀ g1 g2 l, a ≠ .par g1 (.one (.item (.plain (.lit l)) .nil)) g2) →
            ∀ g1 g2 l, a.spread ≠ .par g1 (.one (.item (.plain (.lit l)) .nil)) g2 := by
          intro a ha g1 g2 l he
          cases a with
          | par k1 e k2 =>
            cases e with
            | one s =>
              cases s with
              | item i t =>
                cases i with
                | plain b =>
                  cases b <;> cases t <;> simp [Atom.spread, Alt.spread, Seq.spread, Item.spread, Tail.spread] at he
                  exact ha k1 k2 _ rfl
                | _ => simp [Atom.spread, Alt.spread, Seq.spread, Item.spread, Tail.spread] at he
              | _ => simp [Atom.spread, Alt.spread, Seq.spread, Item.spread, Tail.spread] at he
            | _ => simp [Atom.spread, Alt.spread, Seq.spread, Item.spread, Tail.spread] at he
          | _ => simp [Atom.spread, Alt.spread, Seq.spread, Item.spread, Tail.spread] at he
        cases j with
        | not a => rw [Item.spread]; exact id
        | plain a | star a | plus a | opt a =>
          by_cases hp : ∃ g1 g2 l, a = .par g1 (.one (.item (.plain (.lit l)) .nil)) g2
          · obtain ⟨g1, g2, l, rfl⟩ := hp
            intro _
            trivial
          · have hq := key a (fun g1 g2 l he => hp ⟨g1, g2, l, he⟩)
            rw [Item.spread]
            intro h2
            split at h2 <;> first
              | exact h2.elim
              | (next he => injection he with he; exact (hq _ _ _ he).elim)
              | (next he => exact absurd he (by simp))
      | _ => exact h
    | _ => exact h
  | _ => exact h

mutual
theorem atom_spread_ok : ∀ a : Syntax.Atom, a.OK → a.spread.OK
  | .lit l, h => h
  | .cls cs rs, h => h
  | .ref n, h => h
  | .dot, h => h
  | .par g1 e g2, h => by
    rw [Atom.OK] at h
    rw [Atom.spread, Atom.OK]
    exact ⟨nl_ok, alt_spread_ok e h.2.1, nl_ok⟩
theorem item_spread_ok : ∀ i : Syntax.Item, i.OK → i.spread.OK
  | .plain a, h => by rw [Item.OK] at h; rw [Item.spread, Item.OK]; exact atom_spread_ok a h
  | .star a, h => by rw [Item.OK] at h; rw [Item.spread, Item.OK]; exact atom_spread_ok a h
  | .plus a, h => by rw [Item.OK] at h; rw [Item.spread, Item.OK]; exact atom_spread_ok a h
  | .opt a, h => by rw [Item.OK] at h; rw [Item.spread, Item.OK]; exact atom_spread_ok a h
  | .not a, h => by rw [Item.OK] at h; rw [Item.spread, Item.OK]; exact atom_spread_ok a h
theorem seq_spread_ok : ∀ s : Syntax.Seq, s.OK → s.spread.OK
  | .err g1 g2 l g3, h => by
    rw [Seq.OK] at h
    rw [Seq.spread, Seq.OK]
    exact ⟨nl_ok, nl_ok, h.2.2.1, nl_ok⟩
  | .item i t, h => by
    rw [Seq.OK] at h
    rw [Seq.spread, Seq.OK]
    exact ⟨item_spread_ok i h.1, tail_spread_ok t h.2.1, fun hl => h.2.2 (looks_spread hl)⟩
theorem tail_spread_ok : ∀ t : Syntax.Tail, t.OK → t.spread.OK
  | .nil, h => h
  | .item g i t, h => by
    rw [Tail.OK] at h
    rw [Tail.spread, Tail.OK]
    exact ⟨⟨nl_ok, _, _, rfl, rfl⟩, item_spread_ok i h.2.1, tail_spread_ok t h.2.2.1, fun hl => h.2.2.2 (looks_spread hl)⟩
  | .err g g1 g2 l g3 t, h => by
    rw [Tail.OK] at h
    rw [Tail.spread, Tail.OK]
    exact ⟨⟨nl_ok, _, _, rfl, rfl⟩, ⟨nl_ok, nl_ok, h.2.1.2.2.1, nl_ok⟩, tail_spread_ok t h.2.2⟩
theorem alt_spread_ok : ∀ a : Syntax.Alt, a.OK → a.spread.OK
  | .one s, h => by rw [Alt.OK] at h; rw [Alt.spread, Alt.OK]; exact seq_spread_ok s h
  | .cons s g1 g2 a, h => by
    rw [Alt.OK] at h
    rw [Alt.spread, Alt.OK]
    exact ⟨seq_spread_ok s h.1, nl_ok, ⟨nl_ok, by decide⟩, alt_spread_ok a h.2.2.2⟩
end

theorem nlTerm_ok : nlTerm.OK := ⟨by decide, by decide⟩

mutual
theorem def_spread_ok : ∀ d : Def, d.OK → d.spread.OK
  | .rule n g1 g2 e t, h => by
    rw [Def.OK] at h
    rw [Def.spread, Def.OK]
    exact ⟨h.1, nl_ok, nl_ok, alt_spread_ok e h.2.2.2.1, nlTerm_ok⟩
  | .module n g1 g2 ds t, h => by
    rw [Def.OK] at h
    rw [Def.spread, Def.OK]
    exact ⟨h.1, nl_ok, nl_ok, defs_spread_ok ds h.2.2.2.1, nlTerm_ok⟩
theorem defs_spread_ok : ∀ ds : Defs, ds.OK → ds.spread.OK
  | .one d, h => by rw [Defs.OK] at h; rw [Defs.spread, Defs.OK]; exact def_spread_ok d h
  | .cons d ds, h => by
    rw [Defs.OK] at h
    rw [Defs.spread, Defs.OK]
    exact ⟨def_spread_ok d h.1, defs_spread_ok ds h.2⟩
end

/-! ### The meaning is the same -/

mutual
theorem atom_spread_denote : ∀ a : Syntax.Atom, a.spread.denote = a.denote ∧ a.spread.fault = a.fault
  | .lit l => ⟨rfl, rfl⟩
  | .cls cs rs => ⟨rfl, rfl⟩
  | .ref n => ⟨rfl, rfl⟩
  | .dot => ⟨rfl, rfl⟩
  | .par g1 e g2 => by
    have := alt_spread_denote e
    simp only [Atom.spread, Atom.denote, Atom.fault, this.1, this.2, and_self]
theorem item_spread_denote : ∀ i : Syntax.Item, i.spread.denote = i.denote ∧ i.spread.fault = i.fault
  | .plain a => by have := atom_spread_denote a; simp only [Item.spread, Item.denote, Item.fault, this.1, this.2, and_self]
  | .star a => by have := atom_spread_denote a; simp only [Item.spread, Item.denote, Item.fault, this.1, this.2, and_self]
  | .plus a => by have := atom_spread_denote a; simp only [Item.spread, Item.denote, Item.fault, this.1, this.2, and_self]
  | .opt a => by have := atom_spread_denote a; simp only [Item.spread, Item.denote, Item.fault, this.1, this.2, and_self]
  | .not a => by have := atom_spread_denote a; simp only [Item.spread, Item.denote, Item.fault, this.1, this.2, and_self]
theorem seq_spread_denote : ∀ s : Syntax.Seq, s.spread.denote = s.denote ∧ s.spread.fault = s.fault
  | .err g1 g2 l g3 => ⟨rfl, rfl⟩
  | .item i t => by
    have h1 := item_spread_denote i
    have h2 := tail_spread_denote t
    simp only [Seq.spread, Seq.denote, Seq.fault, h1.1, h1.2, h2.1, h2.2, and_self]
theorem tail_spread_denote : ∀ t : Syntax.Tail, t.spread.denote = t.denote ∧ t.spread.fault = t.fault
  | .nil => ⟨rfl, rfl⟩
  | .item g i t => by
    have h1 := item_spread_denote i
    have h2 := tail_spread_denote t
    simp only [Tail.spread, Tail.denote, Tail.fault, h1.1, h1.2, h2.1, h2.2, and_self]
  | .err g g1 g2 l g3 t => by
    cases t <;> exact ⟨rfl, rfl⟩
theorem alt_spread_denote : ∀ a : Syntax.Alt, a.spread.denote = a.denote ∧ a.spread.fault = a.fault
  | .one s => by have := seq_spread_denote s; simp only [Alt.spread, Alt.denote, Alt.fault, this.1, this.2, and_self]
  | .cons s g1 g2 a => by
    have h1 := seq_spread_denote s
    have h2 := alt_spread_denote a
    simp only [Alt.spread, Alt.denote, Alt.fault, h1.1, h1.2, h2.1, h2.2, and_self]
end

mutual
theorem def_spread_rules : ∀ d : Def, (∀ R, defRules R d.spread = defRules R d) ∧ d.spread.fault = d.fault
  | .rule n g1 g2 e t => by
    have := alt_spread_denote e
    refine ⟨fun R => ?_, ?_⟩
    · rw [Def.spread, defRules, defRules, this.1]
    · rw [Def.spread, Def.fault, Def.fault, this.2]
  | .module n g1 g2 ds t => by
    have := defs_spread_rules ds
    refine ⟨fun R => ?_, ?_⟩
    · rw [Def.spread, defRules, defRules, this.1]
    · rw [Def.spread, Def.fault, Def.fault, this.2]
theorem defs_spread_rules : ∀ ds : Defs, (∀ R, defsRules R ds.spread = defsRules R ds) ∧ ds.spread.fault = ds.fault
  | .one d => by
    have := def_spread_rules d
    refine ⟨fun R => ?_, ?_⟩
    · rw [Defs.spread, defsRules, defsRules, this.1]
    · rw [Defs.spread, Defs.fault, Defs.fault, this.2]
  | .cons d ds => by
    have h1 := def_spread_rules d
    have h2 := defs_spread_rules ds
    refine ⟨fun R => ?_, ?_⟩
    · rw [Defs.spread, defsRules, defsRules, h1.1]
      congr 1
      funext R'
      exact h2.1 R'
    · rw [Defs.spread, Defs.fault, Defs.fault, h1.2, h2.2]
end

/-! ### Its text is made of the tokens -/

theorem gapsStr_nl : gapsStr nl = c!"\n" := rfl

/-- not an operator -/
def Solid (t : Str) : Prop := t ≠ c!"!" ∧ ¬ Postfix t

theorem onePerLine_solid {t : Str} (h : Solid t) (ts : List Str) : onePerLine (t :: ts) = t ++ (lineBefore ts ++ onePerLine ts) := by
  rw [onePerLine, if_neg h.1, List.append_assoc]

theorem lineBefore_solid {t : Str} (h : ¬ Postfix t) (ts : List Str) : lineBefore (t :: ts) = c!"\n" := by
  rw [lineBefore, if_neg h]

theorem solid_of_head {c : Char} {t : Str} (h : c ≠ '!' ∧ c ≠ '*' ∧ c ≠ '+' ∧ c ≠ '?') : Solid (c :: t) := by
  refine ⟨fun he => h.1 (List.cons.inj he).1, ?_⟩
  rintro (he | he | he)
  · exact h.2.1 (List.cons.inj he).1
  · exact h.2.2.1 (List.cons.inj he).1
  · exact h.2.2.2 (List.cons.inj he).1

theorem solid_lit (l : Lit) : Solid l.str := by
  cases l <;> exact solid_of_head (by decide)

theorem solid_symbol {n : Str} (h : ValidSymbol n) : Solid n := by
  obtain ⟨c, cs, rfl, hc, _⟩ := h
  refine solid_of_head ⟨?_, ?_, ?_, ?_⟩ <;> (rintro rfl; exact absurd hc (by decide))

theorem solid_name {n : Str} (h : ValidName n) : Solid n := by
  obtain ⟨d, y, t, hd, hy, ht, rfl⟩ := h
  rcases hd with rfl | rfl
  · obtain ⟨c, cs, rfl, hc, _⟩ := hy
    refine solid_of_head ⟨?_, ?_, ?_, ?_⟩ <;> (rintro rfl; exact absurd hc (by decide))
  · exact solid_of_head (by decide)

theorem lineBefore_of {ts : List Str} {t ts'} (h : ts = t :: ts') (ht : ¬ Postfix t) (rest : List Str) :
    lineBefore (ts ++ rest) = c!"\n" := by
  rw [h, List.cons_append, lineBefore_solid ht]

theorem err_lines (l : Lit) (rest : List Str) :
    onePerLine (errTokens l ++ rest) = errStr nl nl l nl ++ (lineBefore rest ++ onePerLine rest) := by
  have h1 : Solid c!"error" := solid_of_head (by decide)
  have h2 : Solid c!"(" := solid_of_head (by decide)
  have h3 : Solid c!")" := solid_of_head (by decide)
  have h4 := solid_lit l
  show onePerLine (c!"error" :: c!"(" :: l.str :: c!")" :: rest) = _
  rw [onePerLine_solid h1, lineBefore_solid h2.2, onePerLine_solid h2, lineBefore_solid h4.2, onePerLine_solid h4,
    lineBefore_solid h3.2, onePerLine_solid h3, errStr, gapsStr_nl]
  simp

mutual
theorem atom_lines : ∀ a : Syntax.Atom, a.OK → (∃ t ts, a.tokens = t :: ts ∧ Solid t) ∧
    ∀ rest, onePerLine (a.tokens ++ rest) = a.spread.str ++ (lineBefore rest ++ onePerLine rest)
  | .lit l, h => ⟨⟨_, _, rfl, solid_lit l⟩, fun rest => onePerLine_solid (solid_lit l) rest⟩
  | .cls cs rs, h => by
    have hs : Solid ('[' :: cs ++ rangesStr rs ++ [']']) := solid_of_head (by decide)
    exact ⟨⟨_, _, rfl, hs⟩, fun rest => onePerLine_solid hs rest⟩
  | .ref n, h => by
    rw [Atom.OK] at h
    exact ⟨⟨_, _, rfl, solid_name h⟩, fun rest => onePerLine_solid (solid_name h) rest⟩
  | .dot, h => by
    have hs : Solid c!"." := solid_of_head (by decide)
    exact ⟨⟨_, _, rfl, hs⟩, fun rest => onePerLine_solid hs rest⟩
  | .par g1 e g2, h => by
    rw [Atom.OK] at h
    have hs : Solid c!"(" := solid_of_head (by decide)
    have hs' : Solid c!")" := solid_of_head (by decide)
    obtain ⟨⟨t, ts, he, ht⟩, h1⟩ := alt_lines e h.2.1
    refine ⟨⟨_, _, rfl, hs⟩, fun rest => ?_⟩
    rw [Atom.tokens, List.append_assoc]
    show onePerLine (c!"(" :: (e.tokens ++ c!")" :: rest)) = _
    rw [onePerLine_solid hs, h1, onePerLine_solid hs', lineBefore_solid hs'.2, lineBefore_of he ht, Atom.spread, Atom.str]
    simp [gapsStr_nl]
theorem item_lines : ∀ i : Syntax.Item, i.OK → (∃ t ts, i.tokens = t :: ts ∧ ¬ Postfix t) ∧
    ∀ rest, onePerLine (i.tokens ++ rest) = i.spread.str ++ (lineBefore rest ++ onePerLine rest)
  | .plain a, h => by
    rw [Item.OK] at h
    obtain ⟨⟨t, ts, he, ht⟩, h1⟩ := atom_lines a h
    refine ⟨⟨t, ts, by rw [Item.tokens, he], ht.2⟩, fun rest => ?_⟩
    rw [Item.tokens, Item.spread, Item.str, h1]
  | .star a, h => by
    rw [Item.OK] at h
    obtain ⟨⟨t, ts, he, ht⟩, h1⟩ := atom_lines a h
    refine ⟨⟨t, ts ++ [c!"*"], by rw [Item.tokens, he]; rfl, ht.2⟩, fun rest => ?_⟩
    rw [Item.tokens, Item.spread, Item.str, List.append_assoc, h1, List.singleton_append, onePerLine, lineBefore,
      if_pos (by decide), if_neg (by decide)]
    simp
  | .plus a, h => by
    rw [Item.OK] at h
    obtain ⟨⟨t, ts, he, ht⟩, h1⟩ := atom_lines a h
    refine ⟨⟨t, ts ++ [c!"+"], by rw [Item.tokens, he]; rfl, ht.2⟩, fun rest => ?_⟩
    rw [Item.tokens, Item.spread, Item.str, List.append_assoc, h1, List.singleton_append, onePerLine, lineBefore,
      if_pos (by decide), if_neg (by decide)]
    simp
  | .opt a, h => by
    rw [Item.OK] at h
    obtain ⟨⟨t, ts, he, ht⟩, h1⟩ := atom_lines a h
    refine ⟨⟨t, ts ++ [c!"?"], by rw [Item.tokens, he]; rfl, ht.2⟩, fun rest => ?_⟩
    rw [Item.tokens, Item.spread, Item.str, List.append_assoc, h1, List.singleton_append, onePerLine, lineBefore,
      if_pos (by decide), if_neg (by decide)]
    simp
  | .not a, h => by
    rw [Item.OK] at h
    obtain ⟨⟨t, ts, he, ht⟩, h1⟩ := atom_lines a h
    refine ⟨⟨c!"!", _, rfl, by decide⟩, fun rest => ?_⟩
    rw [Item.tokens, Item.spread, Item.str, List.cons_append, onePerLine, if_pos rfl, h1]
    simp
theorem seq_lines : ∀ s : Syntax.Seq, s.OK → (∃ t ts, s.tokens = t :: ts ∧ ¬ Postfix t) ∧
    ∀ rest, onePerLine (s.tokens ++ rest) = s.spread.str ++ (lineBefore rest ++ onePerLine rest)
  | .err g1 g2 l g3, h => ⟨⟨_, _, rfl, by decide⟩, fun rest => err_lines l rest⟩
  | .item i t, h => by
    rw [Seq.OK] at h
    obtain ⟨⟨k, ks, he, hk⟩, h1⟩ := item_lines i h.1
    refine ⟨⟨k, ks ++ t.tokens, by rw [Seq.tokens, he]; rfl, hk⟩, fun rest => ?_⟩
    rw [Seq.tokens, Seq.spread, Seq.str, List.append_assoc, h1, tail_lines t h.2.1, List.append_assoc]
theorem tail_lines : ∀ t : Syntax.Tail, t.OK →
    ∀ rest, lineBefore (t.tokens ++ rest) ++ onePerLine (t.tokens ++ rest) = t.spread.str ++ (lineBefore rest ++ onePerLine rest)
  | .nil, h => fun rest => rfl
  | .item g i t, h => by
    intro rest
    rw [Tail.OK] at h
    obtain ⟨⟨k, ks, he, hk⟩, h1⟩ := item_lines i h.2.1
    rw [Tail.tokens, Tail.spread, Tail.str, List.append_assoc, h1, tail_lines t h.2.2.1, he, List.cons_append, lineBefore_solid hk,
      gapsStr_nl]
    simp
  | .err g g1 g2 l g3 t, h => by
    intro rest
    rw [Tail.OK] at h
    rw [Tail.tokens, Tail.spread, Tail.str, List.append_assoc, err_lines, tail_lines t h.2.2, gapsStr_nl]
    rw [show errTokens l ++ (t.tokens ++ rest) = c!"error" :: ([c!"(", l.str, c!")"] ++ (t.tokens ++ rest)) from rfl,
      lineBefore_solid (by decide)]
    simp
theorem alt_lines : ∀ a : Syntax.Alt, a.OK → (∃ t ts, a.tokens = t :: ts ∧ ¬ Postfix t) ∧
    ∀ rest, onePerLine (a.tokens ++ rest) = a.spread.str ++ (lineBefore rest ++ onePerLine rest)
  | .one s, h => by
    rw [Alt.OK] at h
    obtain ⟨h0, h1⟩ := seq_lines s h
    exact ⟨h0, fun rest => by rw [Alt.tokens, Alt.spread, Alt.str, h1]⟩
  | .cons s g1 g2 a, h => by
    rw [Alt.OK] at h
    obtain ⟨⟨k, ks, he, hk⟩, h1⟩ := seq_lines s h.1
    obtain ⟨⟨k', ks', he', hk'⟩, h2⟩ := alt_lines a h.2.2.2
    have hs : Solid c!"/" := solid_of_head (by decide)
    refine ⟨⟨k, ks ++ c!"/" :: a.tokens, by rw [Alt.tokens, he]; rfl, hk⟩, fun rest => ?_⟩
    rw [Alt.tokens, Alt.spread, Alt.str, List.append_assoc, h1]
    show s.spread.str ++ (lineBefore (c!"/" :: (a.tokens ++ rest)) ++ onePerLine (c!"/" :: (a.tokens ++ rest))) = _
    rw [onePerLine_solid hs, lineBefore_solid hs.2, h2, lineBefore_of he' hk', gapsStr_nl]
    simp
end

mutual
theorem def_lines : ∀ d : Def, d.OK → (∃ t ts, d.tokens = t :: ts ∧ ¬ Postfix t) ∧
    ∀ rest, lineBefore rest = c!"\n" → onePerLine (d.tokens ++ rest) = d.spread.str ++ onePerLine rest
  | .rule n g1 g2 e t, h => by
    rw [Def.OK] at h
    have h1 := solid_name h.1
    have h2 : Solid c!"=" := solid_of_head (by decide)
    obtain ⟨⟨k, ks, he, hk⟩, h3⟩ := alt_lines e h.2.2.2.1
    refine ⟨⟨_, _, rfl, h1.2⟩, fun rest hr => ?_⟩
    show onePerLine (n :: c!"=" :: (e.tokens ++ rest)) = _
    rw [onePerLine_solid h1, lineBefore_solid h2.2, onePerLine_solid h2, h3, lineBefore_of he hk, hr, Def.spread, Def.str, gapsStr_nl, show gapsStr nlTerm.gaps = c!"\n" from rfl]
    simp
  | .module n g1 g2 ds t, h => by
    rw [Def.OK] at h
    have h1 := solid_symbol h.1
    have h2 : Solid c!"{" := solid_of_head (by decide)
    have h3 : Solid c!"}" := solid_of_head (by decide)
    obtain ⟨⟨k, ks, he, hk⟩, h4⟩ := defs_lines ds h.2.2.2.1
    refine ⟨⟨_, _, rfl, h1.2⟩, fun rest hr => ?_⟩
    show onePerLine (n :: c!"{" :: ((ds.tokens ++ [c!"}"]) ++ rest)) = _
    rw [List.append_assoc]
    show onePerLine (n :: c!"{" :: (ds.tokens ++ (c!"}" :: rest))) = _
    rw [onePerLine_solid h1, lineBefore_solid h2.2, onePerLine_solid h2, h4 _ (lineBefore_solid h3.2 _), onePerLine_solid h3, hr,
      lineBefore_of he hk, Def.spread, Def.str, gapsStr_nl, show gapsStr nlTerm.gaps = c!"\n" from rfl]
    simp
theorem defs_lines : ∀ ds : Defs, ds.OK → (∃ t ts, ds.tokens = t :: ts ∧ ¬ Postfix t) ∧
    ∀ rest, lineBefore rest = c!"\n" → onePerLine (ds.tokens ++ rest) = ds.spread.str ++ onePerLine rest
  | .one d, h => by
    rw [Defs.OK] at h
    obtain ⟨h0, h1⟩ := def_lines d h
    exact ⟨h0, fun rest hr => by rw [Defs.tokens, Defs.spread, Defs.str, h1 rest hr]⟩
  | .cons d ds, h => by
    rw [Defs.OK] at h
    obtain ⟨⟨k, ks, he, hk⟩, h1⟩ := def_lines d h.1
    obtain ⟨⟨k', ks', he', hk'⟩, h2⟩ := defs_lines ds h.2
    refine ⟨⟨k, ks ++ ds.tokens, by rw [Defs.tokens, he]; rfl, hk⟩, fun rest hr => ?_⟩
    rw [Defs.tokens, Defs.spread, Defs.str, List.append_assoc, h1 _ (by rw [he', List.cons_append, lineBefore_solid hk']), h2 rest hr,
      List.append_assoc]
end

theorem doc_lines {d : Doc} (h : d.OK) : d.spread.str = onePerLine d.tokens := by
  have h1 := (defs_lines d.defs h.2).2 [] rfl
  rw [List.append_nil, onePerLine, List.append_nil] at h1
  exact h1.symm

theorem doc_spread_ok {d : Doc} (h : d.OK) : d.spread.OK := ⟨trivial, defs_spread_ok d.defs h.2⟩

/-! ### The tokens are parts of the text -/

theorem mem_tok {ts : List Str} {c : Char} {t : Str} (ht : t ∈ ts) (hc : c ∈ t) : c ∈ ts.flatten :=
  List.mem_flatten.mpr ⟨t, ht, hc⟩

theorem errTokens_sub (g1 g2 : Gaps) (l : Lit) (g3 : Gaps) : ∀ c ∈ (errTokens l).flatten, c ∈ errStr g1 g2 l g3 := by
  intro c hc
  simp only [errTokens, List.flatten_cons, List.flatten_nil, List.mem_append, List.not_mem_nil, or_false] at hc
  simp only [errStr, List.mem_append]
  tauto

mutual
theorem atom_sub : ∀ a : Syntax.Atom, ∀ c ∈ a.tokens.flatten, c ∈ a.str
  | .lit l, c, hc => by simpa [Atom.tokens, Atom.str] using hc
  | .cls cs rs, c, hc => by simpa [Atom.tokens, Atom.str] using hc
  | .ref n, c, hc => by simpa [Atom.tokens, Atom.str] using hc
  | .dot, c, hc => by simpa [Atom.tokens, Atom.str] using hc
  | .par g1 e g2, c, hc => by
    have ih := alt_sub e c
    simp only [Atom.tokens, List.flatten_cons, List.flatten_append, List.flatten_nil, List.mem_append, List.append_nil, List.cons_append,
      List.mem_cons, List.not_mem_nil, or_false] at hc
    simp only [Atom.str, List.mem_append, List.cons_append, List.mem_cons, List.not_mem_nil, or_false]
    tauto
theorem item_sub : ∀ i : Syntax.Item, ∀ c ∈ i.tokens.flatten, c ∈ i.str
  | .plain a, c, hc => atom_sub a c hc
  | .star a, c, hc => by
    have ih := atom_sub a c
    simp only [Item.tokens, List.flatten_append, List.flatten_cons, List.flatten_nil, List.append_nil, List.mem_append] at hc
    simp only [Item.str, List.mem_append]
    tauto
  | .plus a, c, hc => by
    have ih := atom_sub a c
    simp only [Item.tokens, List.flatten_append, List.flatten_cons, List.flatten_nil, List.append_nil, List.mem_append] at hc
    simp only [Item.str, List.mem_append]
    tauto
  | .opt a, c, hc => by
    have ih := atom_sub a c
    simp only [Item.tokens, List.flatten_append, List.flatten_cons, List.flatten_nil, List.append_nil, List.mem_append] at hc
    simp only [Item.str, List.mem_append]
    tauto
  | .not a, c, hc => by
    have ih := atom_sub a c
    simp only [Item.tokens, List.flatten_cons, List.mem_append, List.mem_cons, List.not_mem_nil, or_false] at hc
    simp only [Item.str, List.mem_cons]
    tauto
theorem seq_sub : ∀ s : Syntax.Seq, ∀ c ∈ s.tokens.flatten, c ∈ s.str
  | .err g1 g2 l g3, c, hc => errTokens_sub g1 g2 l g3 c hc
  | .item i t, c, hc => by
    have h1 := item_sub i c
    have h2 := tail_sub t c
    simp only [Seq.tokens, List.flatten_append, List.mem_append] at hc
    simp only [Seq.str, List.mem_append]
    tauto
theorem tail_sub : ∀ t : Syntax.Tail, ∀ c ∈ t.tokens.flatten, c ∈ t.str
  | .nil, c, hc => by simp [Tail.tokens] at hc
  | .item g i t, c, hc => by
    have h1 := item_sub i c
    have h2 := tail_sub t c
    simp only [Tail.tokens, List.flatten_append, List.mem_append] at hc
    simp only [Tail.str, List.mem_append]
    tauto
  | .err g g1 g2 l g3 t, c, hc => by
    have h1 := errTokens_sub g1 g2 l g3 c
    have h2 := tail_sub t c
    simp only [Tail.tokens, List.flatten_append, List.mem_append] at hc
    simp only [Tail.str, List.mem_append]
    tauto
theorem alt_sub : ∀ a : Syntax.Alt, ∀ c ∈ a.tokens.flatten, c ∈ a.str
  | .one s, c, hc => seq_sub s c hc
  | .cons s g1 g2 a, c, hc => by
    have h1 := seq_sub s c
    have h2 := alt_sub a c
    simp only [Alt.tokens, List.flatten_append, List.flatten_cons, List.mem_append] at hc
    simp only [Alt.str, List.mem_append]
    tauto
end

mutual
theorem def_sub : ∀ d : Def, ∀ c ∈ d.tokens.flatten, c ∈ d.str
  | .rule n g1 g2 e t, c, hc => by
    have h1 := alt_sub e c
    simp only [Def.tokens, List.flatten_cons, List.mem_append] at hc
    simp only [Def.str, List.mem_append]
    tauto
  | .module n g1 g2 ds t, c, hc => by
    have h1 := defs_sub ds c
    rw [Def.tokens, show n :: c!"{" :: ds.tokens ++ [c!"}"] = [n, c!"{"] ++ ds.tokens ++ [c!"}"] from rfl] at hc
    simp only [List.flatten_append, List.flatten_cons, List.flatten_nil, List.append_nil, List.mem_append] at hc
    simp only [Def.str, List.mem_append]
    tauto
theorem defs_sub : ∀ ds : Defs, ∀ c ∈ ds.tokens.flatten, c ∈ ds.str
  | .one d, c, hc => def_sub d c hc
  | .cons d ds, c, hc => by
    have h1 := def_sub d c
    have h2 := defs_sub ds c
    simp only [Defs.tokens, List.flatten_append, List.mem_append] at hc
    simp only [Defs.str, List.mem_append]
    tauto
end

theorem onePerLine_sub : ∀ ts : List Str, ∀ c ∈ onePerLine ts, c ∈ ts.flatten ∨ c = '\n'
  | [], c, hc => by cases hc
  | t :: ts, c, hc => by
    have ih := onePerLine_sub ts c
    have h1 : ∀ ts, c ∈ lineBefore ts → c = '\n' := by
      intro ts h
      unfold lineBefore at h
      split at h
      · simpa using h
      · split at h
        · cases h
        · simpa using h
    have h2 : c ∈ (if t = c!"!" then [] else lineBefore ts) → c = '\n' := by
      split
      · intro h; cases h
      · exact h1 ts
    simp only [onePerLine, List.mem_append] at hc
    simp only [List.flatten_cons, List.mem_append]
    tauto

theorem doc_lines_ascii {d : Doc} (ha : Ascii d.str) : Ascii (onePerLine d.tokens) := by
  intro c hc
  rcases onePerLine_sub _ c hc with h | rfl
  · exact ha c (List.mem_append_right _ (defs_sub d.defs c h))
  · decide

/-- The answer depends on the tokens only. -/
theorem rulesFromPeg_lines {d : Doc} (h : d.OK) (ha : Ascii d.str) : rulesFromPeg d.str = rulesFromPeg (onePerLine d.tokens) := by
  have h1 := rulesFromPeg_doc' h ha
  have h2 := rulesFromPeg_doc' (doc_spread_ok h) (by rw [doc_lines h]; exact doc_lines_ascii ha)
  rw [doc_lines h] at h2
  have h3 := defs_spread_rules d.defs
  have h4 : d.spread.fault = d.fault := by rw [Doc.fault, Doc.fault, Doc.spread, h3.2]
  rw [h4, show d.spread.defs = d.defs.spread from rfl, h3.1] at h2
  rcases h1 with ⟨R, a1, a2, a3⟩ | ⟨p, a1, a2, a3⟩
  · rcases h2 with ⟨R', b1, b2, b3⟩ | ⟨p, b1, b2, b3⟩
    · rw [a1] at b1; cases b1; rw [a3, b3]
    · rw [a1] at b1; cases b1
  · rcases h2 with ⟨R', b1, b2, b3⟩ | ⟨p, b1, b2, b3⟩
    · rw [a1] at b1; cases b1
    · rw [a2] at b2; cases b2; rw [a3, b3]

end DP
