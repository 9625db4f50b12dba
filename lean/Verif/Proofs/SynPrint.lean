/-
The printed text of rules: well-formed, ASCII, and denoting the rules.
-/
import Verif.Spec.PegPrint
import Verif.Proofs.SynDoc

namespace DP
open Spec Spec.Syntax

/-! ### Meaning -/

theorem asItem_denote (a : Alt) : (asItem a).denote = a.denote.map altOf := by
  unfold asItem
  split
  · rename_i i
    rw [Alt.denote, Seq.denote, Tail.denote]
    cases i.denote <;> rfl
  · rw [Item.denote, Atom.denote]

theorem asAtom_denote (a : Alt) : (asAtom a).denote = a.denote.map altOf := by
  unfold asAtom
  split
  · rename_i i
    rw [Alt.denote, Seq.denote, Tail.denote, Item.denote]
    cases i.denote <;> rfl
  · rw [Atom.denote]

theorem asSeq_denote (a : Alt) : (asSeq a).denote.map seqOf = a.denote.map altOf := by
  unfold asSeq
  split
  · rename_i s
    rw [Alt.denote]
    cases s.denote <;> rfl
  · rw [Seq.denote, Item.denote, Atom.denote, Tail.denote]
    cases a.denote <;> rfl

theorem only_denote (i : Syntax.Item) : (only i).denote.map altOf = i.denote := by
  rw [only, Alt.denote, Seq.denote, Tail.denote]
  cases i.denote <;> rfl

theorem hexDigit_ok {n : Nat} (h : n < 16) : HexDigit (hexDigit n) ∧ digitVal (hexDigit n) = n ∧ (hexDigit n).toNat < 128 := by
  have : ∀ n < 16, HexDigit (hexDigit n) ∧ digitVal (hexDigit n) = n ∧ (hexDigit n).toNat < 128 := by decide
  exact this n h

theorem pieceOf_val {c : Char} (h : c.toNat < 256) : (pieceOf c).val = c := by
  unfold pieceOf
  split
  · subst c; rfl
  split
  · subst c; rfl
  split
  · subst c; rfl
  split
  · subst c; rfl
  split
  · subst c; rfl
  split
  · rfl
  · rw [Piece.val, (hexDigit_ok (by omega)).2.1, (hexDigit_ok (by omega)).2.1]
    have : 16 * (c.toNat / 16) + c.toNat % 16 = c.toNat := Nat.div_add_mod _ _
    rw [this, Char.ofNat_toNat]

theorem litOf_val {l : Str} (h : ValidLiteral l) : (litOf l).val = some l := by
  rw [litOf, Lit.val, List.map_map]
  congr 1
  conv => rhs; rw [← List.map_id l]
  exact List.map_congr_left fun c hc => pieceOf_val (h c hc)

mutual
theorem altE_denote : ∀ e, PegExpr e → (altE e).denote.map altOf = some e
  | .simple (.literal l), h => by
    rw [altE, only_denote, Item.denote, Atom.denote, litOf_val (by cases h; assumption)]
    rfl
  | .simple (.mtch cs rs), h => by rw [altE, only_denote, Item.denote, Atom.denote]
  | .simple .dot, h => by rw [altE, only_denote, Item.denote, Atom.denote]
  | .simple .eof, h => by cases h
  | .simple (.error m), h => by
    rw [altE, Alt.denote, Seq.denote, litOf_val (by cases h; assumption)]
    rfl
  | .ruleName n, h => by rw [altE, only_denote, Item.denote, Atom.denote]
  | .and es, h => by
    cases h with
    | and h2 hes =>
      match es with
      | [] => simp at h2
      | [_] => simp at h2
      | e :: f :: es =>
        rw [altE, Alt.denote, seqL, Seq.denote, asItem_denote, altE_denote e (hes e (by simp)), tailL_denote (f :: es) (fun x hx => hes x (by simp [hx]))]
        rfl
  | .or es, h => by
    cases h with
    | or h2 hes =>
      match es with
      | [] => simp at h2
      | [_] => simp at h2
      | e :: f :: es =>
        rw [altE, altL_denote (e :: f :: es) (by simp) hes]
        rfl
  | .not e, h => by
    rw [altE, only_denote, Item.denote, asAtom_denote, altE_denote e (by cases h; assumption)]
    rfl
  | .rep e min max, h => by
    have ih := altE_denote e (by cases h <;> assumption)
    rw [altE, only_denote]
    cases h <;> rw [repOf, Item.denote, asAtom_denote, ih] <;> rfl
theorem tailL_denote : ∀ es : List Expr, (∀ e ∈ es, PegExpr e) → (tailL es).denote = some es
  | [], _ => by rw [tailL, Tail.denote]
  | e :: es, h => by
    rw [tailL, Tail.denote, asItem_denote, altE_denote e (h e (by simp)), tailL_denote es (fun x hx => h x (by simp [hx]))]
    rfl
theorem altL_denote : ∀ es : List Expr, es ≠ [] → (∀ e ∈ es, PegExpr e) → (altL es).denote = some es
  | [], h, _ => absurd rfl h
  | [e], _, h => by
    have := asSeq_denote (altE e)
    rw [altE_denote e (h e (by simp))] at this
    rw [altL, Alt.denote]
    cases hs : (asSeq (altE e)).denote with
    | none => rw [hs] at this; cases this
    | some es => rw [hs] at this; cases this; rfl
  | e :: f :: es, _, h => by
    have := asSeq_denote (altE e)
    rw [altE_denote e (h e (by simp))] at this
    rw [altL, Alt.denote, altL_denote (f :: es) (by simp) (fun x hx => h x (by simp [hx]))]
    cases hs : (asSeq (altE e)).denote with
    | none => rw [hs] at this; cases this
    | some es => rw [hs] at this; cases this; rfl
end

/-! ### The text can be read back -/

theorem piecesOf_ok : ∀ {l : Str}, ValidLiteral l → PiecesOK (l.map pieceOf)
  | [], _ => trivial
  | c :: l, h => by
    have ih := piecesOf_ok (l := l) (fun x hx => h x (by simp [hx]))
    have hc := h c (by simp)
    rw [List.map_cons]
    unfold pieceOf
    split
    · exact ih
    split
    · exact ih
    split
    · exact ih
    split
    · exact ih
    split
    · exact ih
    rename_i h1 h2
    split
    · exact ⟨h2, fun h => absurd h h1, ih⟩
    · exact ⟨(hexDigit_ok (by omega)).1, (hexDigit_ok (by omega)).1, ih⟩

/-- items that are not a literal in parentheses -/
def NoLitPar : Syntax.Item → Prop
  | .plain (.par _ (.one (.item (.plain (.lit _)) .nil)) _) => False
  | .star (.par _ (.one (.item (.plain (.lit _)) .nil)) _) => False
  | .plus (.par _ (.one (.item (.plain (.lit _)) .nil)) _) => False
  | .opt (.par _ (.one (.item (.plain (.lit _)) .nil)) _) => False
  | _ => True

theorem NoLitPar.looks {g : Gaps} {i j : Syntax.Item} {t : Syntax.Tail} (h : NoLitPar j) : ¬ LooksLikeError i (.item g j t) := by
  intro hl
  unfold LooksLikeError at hl
  split at hl
  · rename_i h1 h2
    cases h2
    obtain ⟨_, hl⟩ := hl
    revert hl
    split <;> first | exact fun _ => h | exact fun h => h
  · exact hl

/-- readable, and nothing in it is a literal in superfluous parentheses -/
def Printed (a : Alt) : Prop := a.OK ∧ ∀ i, a = .one (.item i .nil) → NoLitPar i

theorem Printed.seq {a : Alt} (h : Printed a) : (asSeq a).OK := by
  unfold asSeq
  split
  · have := h.1
    rw [Alt.OK] at this
    exact this
  · rw [Seq.OK, Item.OK, Atom.OK, Tail.OK]
    exact ⟨⟨trivial, h.1, trivial⟩, trivial, by simp [LooksLikeError]⟩

theorem Printed.item {a : Alt} (h : Printed a) : (asItem a).OK ∧ NoLitPar (asItem a) := by
  unfold asItem
  split
  · have := h.1
    rw [Alt.OK, Seq.OK] at this
    exact ⟨this.1, h.2 _ rfl⟩
  · rename_i hn
    refine ⟨?_, ?_⟩
    · rw [Item.OK, Atom.OK]
      exact ⟨trivial, h.1, trivial⟩
    · unfold NoLitPar
      split <;> first | trivial | (rename_i e; cases e; exact hn _ rfl)

theorem Printed.atom {a : Alt} (h : Printed a) : (asAtom a).OK ∧ ∀ g1 l g2, asAtom a ≠ .par g1 (.one (.item (.plain (.lit l)) .nil)) g2 := by
  unfold asAtom
  split
  · have := h.1
    rw [Alt.OK, Seq.OK, Item.OK] at this
    refine ⟨this.1, ?_⟩
    intro g1 l g2 e
    subst e
    exact h.2 _ rfl
  · rename_i hn
    refine ⟨?_, ?_⟩
    · rw [Atom.OK]
      exact ⟨trivial, h.1, trivial⟩
    · intro g1 l g2 e
      cases e
      exact hn _ rfl

theorem printed_only {i : Syntax.Item} (h : i.OK) (hn : NoLitPar i) : Printed (only i) := by
  refine ⟨?_, ?_⟩
  · rw [only, Alt.OK, Seq.OK, Tail.OK]
    exact ⟨h, trivial, by cases i <;> simp [LooksLikeError]⟩
  · intro j e
    cases e
    exact hn

theorem sep_sp : SepOK [.sp] := ⟨trivial, .sp, [], rfl, rfl⟩

mutual
theorem altE_printed : ∀ e, PegExpr e → Printed (altE e)
  | .simple (.literal l), h => by
    rw [altE]
    refine printed_only ?_ trivial
    rw [Item.OK, Atom.OK]
    exact piecesOf_ok (by cases h; assumption)
  | .simple (.mtch cs rs), h => by
    rw [altE]
    refine printed_only ?_ trivial
    rw [Item.OK, Atom.OK]
    cases h with
    | cls h => exact ⟨h.nonempty, h.no_bracket, h.no_dash, h.no_dash_range⟩
  | .simple .dot, h => by
    rw [altE]
    exact printed_only (by rw [Item.OK, Atom.OK]; trivial) trivial
  | .simple .eof, h => by cases h
  | .simple (.error m), h => by
    rw [altE]
    refine ⟨?_, fun i e => by cases e⟩
    rw [Alt.OK, Seq.OK]
    exact ⟨trivial, trivial, piecesOf_ok (by cases h; assumption), trivial⟩
  | .ruleName n, h => by
    rw [altE]
    exact printed_only (by rw [Item.OK, Atom.OK]; cases h; assumption) trivial
  | .and es, h => by
    cases h with
    | and h2 hes =>
      match es with
      | [] => simp at h2
      | [_] => simp at h2
      | e :: f :: es =>
        have h1 := (altE_printed e (hes e (by simp))).item
        have h3 := tailL_ok (f :: es) (fun x hx => hes x (by simp [hx]))
        rw [altE, seqL]
        refine ⟨?_, fun i e => by rw [tailL] at e; cases e⟩
        rw [Alt.OK, Seq.OK]
        exact ⟨h1.1, h3.1, h3.2 _⟩
  | .or es, h => by
    cases h with
    | or h2 hes =>
      match es with
      | [] => simp at h2
      | [_] => simp at h2
      | e :: f :: es =>
        refine ⟨?_, fun i e => by rw [altE, altL] at e; cases e⟩
        rw [altE]
        exact altL_ok (e :: f :: es) hes (by simp)
  | .not e, h => by
    have ih := (altE_printed e (by cases h; assumption)).atom
    rw [altE]
    exact printed_only (by rw [Item.OK]; exact ih.1) trivial
  | .rep e min max, h => by
    have ih := (altE_printed e (by cases h <;> assumption)).atom
    rw [altE]
    cases h <;> refine printed_only (by rw [repOf, Item.OK]; exact ih.1) ?_ <;>
      (rw [repOf]; unfold NoLitPar; split <;> first | trivial | (rename_i e; injection e with e; exact ih.2 _ _ _ e))
theorem tailL_ok : ∀ es : List Expr, (∀ e ∈ es, PegExpr e) → (tailL es).OK ∧ ∀ i, ¬ LooksLikeError i (tailL es)
  | [], _ => by
    rw [tailL, Tail.OK]
    refine ⟨trivial, fun i => by cases i <;> simp [LooksLikeError]⟩
  | e :: es, h => by
    have h1 := (altE_printed e (h e (by simp))).item
    have h3 := tailL_ok es (fun x hx => h x (by simp [hx]))
    rw [tailL, Tail.OK]
    exact ⟨⟨sep_sp, h1.1, h3.1, h3.2 _⟩, fun i => h1.2.looks⟩
theorem altL_ok : ∀ es : List Expr, (∀ e ∈ es, PegExpr e) → es ≠ [] → (altL es).OK
  | [], _, h => absurd rfl h
  | [e], h, _ => by
    rw [altL, Alt.OK]
    exact (altE_printed e (h e (by simp))).seq
  | e :: f :: es, h, _ => by
    rw [altL, Alt.OK]
    exact ⟨(altE_printed e (h e (by simp))).seq, trivial, ⟨trivial, fun x hx => by cases hx; rfl⟩, altL_ok (f :: es) (fun x hx => h x (by simp [hx])) (by simp)⟩
end

/-! ### ASCII -/

theorem ascii_nil : Ascii [] := fun c hc => by cases hc
theorem ascii_append {a b : Str} (ha : Ascii a) (hb : Ascii b) : Ascii (a ++ b) := fun c hc => by
  rcases List.mem_append.mp hc with h | h
  · exact ha c h
  · exact hb c h
theorem ascii_consC {c : Char} {b : Str} (ha : c.toNat < 128) (hb : Ascii b) : Ascii (c :: b) := ascii_append (a := [c]) (by
  intro d hd
  cases List.mem_singleton.mp hd
  exact ha) hb

theorem char_le {c d : Char} (h : c ≤ d) : c.toNat ≤ d.toNat := h

theorem wordChar_ascii {c : Char} (h : WordChar c) : c.toNat < 128 := by
  rcases h with rfl | ⟨_, h⟩ | ⟨_, h⟩ | ⟨_, h⟩
  · decide
  all_goals exact Nat.lt_of_le_of_lt (char_le h) (by decide)

theorem symbol_ascii {s : Str} (h : ValidSymbol s) : Ascii s := by
  obtain ⟨c, cs, rfl, h1, h2⟩ := h
  refine ascii_consC (wordChar_ascii h1) fun d hd => ?_
  rcases h2 d hd with h | rfl | rfl
  · exact wordChar_ascii h
  · decide
  · decide

theorem name_ascii {n : Str} (h : ValidName n) : Ascii n := by
  obtain ⟨d, y, t, hd, hy, ht, rfl⟩ := h
  refine ascii_append (ascii_append ?_ (symbol_ascii hy)) ?_
  · rcases hd with rfl | rfl <;> decide
  · induction ht with
    | nil => exact ascii_nil
    | cons hy _ ih => exact ascii_append (ascii_consC (by decide) (symbol_ascii hy)) ih

theorem piece_ascii {c : Char} (h : c.toNat < 256) : Ascii (pieceOf c).str := by
  unfold pieceOf
  split
  · decide
  split
  · decide
  split
  · decide
  split
  · decide
  split
  · decide
  split
  · exact ascii_consC (by assumption) ascii_nil
  · exact ascii_consC (by decide) (ascii_consC (by decide) (ascii_consC (by decide)
      (ascii_consC (hexDigit_ok (by omega)).2.2 (ascii_consC (hexDigit_ok (by omega)).2.2 ascii_nil))))

theorem pieces_ascii : ∀ {l : Str}, ValidLiteral l → Ascii (piecesStr (l.map pieceOf))
  | [], _ => ascii_nil
  | c :: l, h => ascii_append (piece_ascii (h c (by simp))) (pieces_ascii (fun x hx => h x (by simp [hx])))

theorem litOf_ascii {l : Str} (h : ValidLiteral l) : Ascii (litOf l).str := by
  rw [litOf, Lit.str]
  exact ascii_append (ascii_consC (by decide) (pieces_ascii h)) (by decide)

theorem ranges_ascii : ∀ {rs : List (Char × Char)}, (∀ r ∈ rs, r.1.toNat < 128 ∧ r.2.toNat < 128) → Ascii (rangesStr rs)
  | [], _ => ascii_nil
  | (a, b) :: rs, h => ascii_append (ascii_consC (h (a, b) (by simp)).1 (ascii_consC (by decide) (ascii_consC (h (a, b) (by simp)).2 ascii_nil)))
      (ranges_ascii (fun x hx => h x (by simp [hx])))

theorem par_ascii {a : Alt} (h : Ascii a.str) : Ascii (Syntax.Atom.par [] a []).str := by
  rw [Atom.str]
  exact ascii_append (ascii_append (ascii_append (by decide) h) (by decide)) (by decide)

theorem asSeq_ascii {a : Alt} (h : Ascii a.str) : Ascii (asSeq a).str := by
  unfold asSeq
  split
  · rw [Alt.str] at h; exact h
  · rw [Seq.str, Item.str, Tail.str]
    exact ascii_append (par_ascii h) ascii_nil

theorem asItem_ascii {a : Alt} (h : Ascii a.str) : Ascii (asItem a).str := by
  unfold asItem
  split
  · rw [Alt.str, Seq.str] at h; exact ascii_append_left h
  · rw [Item.str]
    exact par_ascii h

theorem asAtom_ascii {a : Alt} (h : Ascii a.str) : Ascii (asAtom a).str := by
  unfold asAtom
  split
  · rw [Alt.str, Seq.str, Item.str] at h; exact ascii_append_left h
  · exact par_ascii h

theorem only_ascii {i : Syntax.Item} (h : Ascii i.str) : Ascii (only i).str := by
  rw [only, Alt.str, Seq.str, Tail.str]
  exact ascii_append h ascii_nil

mutual
theorem altE_ascii : ∀ e, PegExpr e → Ascii (altE e).str
  | .simple (.literal l), h => by
    rw [altE]
    refine only_ascii ?_
    rw [Item.str, Atom.str]
    exact litOf_ascii (by cases h; assumption)
  | .simple (.mtch cs rs), h => by
    rw [altE]
    refine only_ascii ?_
    rw [Item.str, Atom.str]
    cases h with
    | cls h => exact ascii_append (ascii_append (ascii_consC (by decide) h.ascii.1) (ranges_ascii h.ascii.2)) (by decide)
  | .simple .dot, h => by
    rw [altE]
    exact only_ascii (by rw [Item.str, Atom.str]; decide)
  | .simple .eof, h => by cases h
  | .simple (.error m), h => by
    rw [altE, Alt.str, Seq.str, errStr]
    exact ascii_append (ascii_append (ascii_append (by decide) (litOf_ascii (by cases h; assumption))) (by decide)) (by decide)
  | .ruleName n, h => by
    rw [altE]
    exact only_ascii (by rw [Item.str, Atom.str]; exact name_ascii (by cases h; assumption))
  | .and es, h => by
    cases h with
    | and h2 hes =>
      match es with
      | [] => simp at h2
      | e :: es =>
        rw [altE, Alt.str, seqL, Seq.str]
        exact ascii_append (asItem_ascii (altE_ascii e (hes e (by simp)))) (tailL_ascii es (fun x hx => hes x (by simp [hx])))
  | .or es, h => by
    rw [altE]
    exact altL_ascii es (by cases h; assumption)
  | .not e, h => by
    rw [altE]
    refine only_ascii ?_
    rw [Item.str]
    exact ascii_consC (by decide) (asAtom_ascii (altE_ascii e (by cases h; assumption)))
  | .rep e min max, h => by
    have ih := asAtom_ascii (altE_ascii e (by cases h <;> assumption))
    rw [altE]
    refine only_ascii ?_
    cases h <;> rw [repOf, Item.str] <;> exact ascii_append ih (by decide)
theorem tailL_ascii : ∀ es : List Expr, (∀ e ∈ es, PegExpr e) → Ascii (tailL es).str
  | [], _ => by rw [tailL, Tail.str]; exact ascii_nil
  | e :: es, h => by
    rw [tailL, Tail.str]
    exact ascii_append (ascii_append (by decide) (asItem_ascii (altE_ascii e (h e (by simp))))) (tailL_ascii es (fun x hx => h x (by simp [hx])))
theorem altL_ascii : ∀ es : List Expr, (∀ e ∈ es, PegExpr e) → Ascii (altL es).str
  | [], _ => by rw [altL]; decide
  | [e], h => by
    rw [altL, Alt.str]
    exact asSeq_ascii (altE_ascii e (h e (by simp)))
  | e :: f :: es, h => by
    rw [altL, Alt.str]
    exact ascii_append (ascii_append (ascii_append (ascii_append (asSeq_ascii (altE_ascii e (h e (by simp)))) (by decide)) (by decide)) (by decide))
      (altL_ascii (f :: es) (fun x hx => h x (by simp [hx])))
end

/-! ### Rules -/

theorem defsE_ok : ∀ {rs : List (Str × Expr)} {n e}, (∀ r ∈ (n, e) :: rs, ValidName r.1 ∧ PegExpr r.2) →
    (defsE n e rs).OK ∧ Ascii (defsE n e rs).str ∧
    ∀ R, defsRules R (defsE n e rs) = some (((n, e) :: rs).foldl (fun R kv => R.add kv.1 kv.2) R)
  | rs, n, e, h => by
    have he := h (n, e) (by simp)
    have h1 : (ruleE n e).OK := by
      rw [ruleE, Def.OK]
      exact ⟨he.1, trivial, trivial, (altE_printed e he.2).1, trivial, fun g hg => by cases hg⟩
    have h2 : Ascii (ruleE n e).str := by
      rw [ruleE, Def.str]
      exact ascii_append (ascii_append (ascii_append (ascii_append (ascii_append (name_ascii he.1) (by decide)) (by decide)) (by decide)) (altE_ascii e he.2)) (by decide)
    have h3 : ∀ R, defRules R (ruleE n e) = some (R.add n e) := by
      intro R
      have := altE_denote e he.2
      rw [ruleE, defRules]
      cases hd : (altE e).denote with
      | none => rw [hd] at this; cases this
      | some es =>
        rw [hd] at this
        simp only [Option.map_some, Option.some.injEq] at this ⊢
        rw [this]
    match rs with
    | [] =>
      rw [defsE, Defs.OK, Defs.str]
      refine ⟨h1, h2, fun R => ?_⟩
      rw [defsRules, h3]
      rfl
    | (m, f) :: rs =>
      have ih := defsE_ok (rs := rs) (n := m) (e := f) (fun x hx => h x (by simp [hx]))
      rw [defsE, Defs.OK, Defs.str]
      refine ⟨⟨h1, ih.1⟩, ascii_append h2 ih.2.1, fun R => ?_⟩
      rw [defsRules, h3, Option.bind_some, ih.2.2]
      rfl

theorem printRules_read {rs : List (Str × Expr)} (hne : rs ≠ []) (h : ∀ r ∈ rs, ValidName r.1 ∧ PegExpr r.2) :
    rulesFromPeg (printRules rs) = .ok (.ofList rs) := by
  match rs with
  | [] => exact absurd rfl hne
  | (n, e) :: rs =>
    have h1 := defsE_ok h
    exact (rulesFromPeg_doc (d := ⟨[], defsE n e rs⟩) ⟨trivial, h1.1⟩ h1.2.1).1 _ (h1.2.2 _)

end DP
