/-
Everything the built-in grammar accepts is the text of a document of the concrete syntax.
-/
import Verif.Proofs.SynDoc
import Verif.Props.PegFront

namespace DP
open Spec PegRules Spec.Syntax Peg

/-! ### Layout -/

theorem inv_and_end {G : Str → Option Expr} {s r ns} (h : Peg G (.and []) s (.ok r ns)) : r = s ∧ ns = [] := by
  cases h; exact ⟨rfl, rfl⟩

theorem eol_inv {s r ns} (h : Peg GP (.ruleName c!"eol") s (.ok r ns)) :
    ∃ e : Eol, s = e.str ++ r ∧ (e = .cr → r.head? ≠ some '\n') := by
  obtain ⟨cs, -, h⟩ := inv_call gp_eol h
  rcases inv_or_cons h with h | ⟨hf, h⟩
  · obtain ⟨rfl, _⟩ := inv_lit h
    exact ⟨.crlf, rfl, fun h => by cases h⟩
  · rcases inv_or_cons h with h | ⟨_, h⟩
    · obtain ⟨rfl, _⟩ := inv_lit h
      exact ⟨.lf, rfl, fun h => by cases h⟩
    · rcases inv_or_cons h with h | ⟨_, h⟩
      · obtain ⟨rfl, _⟩ := inv_lit h
        refine ⟨.cr, rfl, fun _ hr => ?_⟩
        cases r with
        | nil => cases hr
        | cons c r =>
          cases hr
          have := peg_det hf (litOk (l := c!"\r\n") (r := r))
          cases this
      · exact (inv_or_nil h).elim

/-- characters before a stop -/
theorem chars_inv {stop : Expr} {s nss r} (h : Star GP (.and [.not stop, .simple .dot]) s nss r) :
    ∃ l : Str, s = l ++ r ∧ ∀ x y, l = x ++ y → y ≠ [] → ∀ q ns, ¬ Peg GP stop (y ++ r) (.ok q ns) := by
  induction h with
  | nil s => exact ⟨[], rfl, by intro x y e hy; simp at e; exact absurd e.2 hy⟩
  | @cons s q r ns nss h1 _ ih =>
    obtain ⟨l, rfl, hl⟩ := ih
    obtain ⟨q1, n1, n2, h3, h4, rfl⟩ := inv_and h1
    obtain ⟨rfl, _, hn⟩ := inv_not h3
    obtain ⟨q2, n3, n4, h5, h6, rfl⟩ := inv_and h4
    obtain ⟨c, rfl, rfl⟩ := inv_dot h5
    obtain ⟨rfl, _⟩ := inv_and_end h6
    refine ⟨c :: l, rfl, ?_⟩
    intro x y e hy
    cases x with
    | nil =>
      have e : c :: l = y := e
      rw [← e]
      exact hn
    | cons d x =>
      simp only [List.cons_append, List.cons.injEq] at e
      exact hl x y e.2 hy

theorem eol_starts {c : Char} (h : c = '\n' ∨ c = '\r') (r : Str) : ∃ q ns, Peg GP (.ruleName c!"eol") (c :: r) (.ok q ns) := by
  rcases h with rfl | rfl
  · exact ⟨_, _, eol_ok (e := .lf) (r := r) fun h => by cases h⟩
  · by_cases hr : r.head? = some '\n'
    · cases r with
      | nil => cases hr
      | cons c r =>
        cases hr
        exact ⟨_, _, eol_ok (e := .crlf) (r := r) fun h => by cases h⟩
    · exact ⟨_, _, eol_ok (e := .cr) (r := r) fun _ => hr⟩

theorem comment_inv {s r ns} (h : Peg GP (.ruleName c!"comment") s (.ok r ns)) :
    ∃ g : Gap, g.isComment = true ∧ g.OK ∧ s = g.str ++ r ∧ GapEnd g r := by
  obtain ⟨cs, -, h⟩ := inv_call gp_comment h
  rcases inv_or_cons h with h | ⟨_, h⟩
  · obtain ⟨cs, -, h⟩ := inv_call gp_line_comment h
    obtain ⟨q, n1, n2, h1, h2, rfl⟩ := inv_and h
    obtain ⟨rfl, _⟩ := inv_lit h1
    obtain ⟨q, n3, n4, h3, h4, rfl⟩ := inv_and h2
    obtain ⟨q', n5, n6, h5, h6, rfl⟩ := inv_and h4
    obtain ⟨rfl, _⟩ := inv_and_end h6
    obtain ⟨e, rfl, he⟩ := eol_inv h5
    obtain ⟨nss, h7, rfl, _, _⟩ := inv_rep h3
    obtain ⟨l, rfl, hl⟩ := chars_inv h7
    refine ⟨.line l e, rfl, ?_, by simp [Gap.str], ?_⟩
    · intro c hc
      obtain ⟨x, y, rfl⟩ := List.append_of_mem hc
      by_contra hn
      obtain ⟨q, ns, hq⟩ := eol_starts (c := c) (by tauto) (y ++ (e.str ++ r))
      exact hl x (c :: y) rfl (by simp) q ns hq
    · intro hcr
      apply he
      cases e <;> first | rfl | cases hcr
  · rcases inv_or_cons h with h | ⟨_, h⟩
    · obtain ⟨cs, -, h⟩ := inv_call gp_mline_comment h
      obtain ⟨q, n1, n2, h1, h2, rfl⟩ := inv_and h
      obtain ⟨rfl, _⟩ := inv_lit h1
      obtain ⟨q, n3, n4, h3, h4, rfl⟩ := inv_and h2
      obtain ⟨q', n5, n6, h5, h6, rfl⟩ := inv_and h4
      obtain ⟨rfl, _⟩ := inv_and_end h6
      obtain ⟨rfl, _⟩ := inv_lit h5
      obtain ⟨nss, h7, rfl, _, _⟩ := inv_rep h3
      obtain ⟨l, rfl, hl⟩ := chars_inv h7
      refine ⟨.multi l, rfl, ?_, by simp [Gap.str], fun h => by cases h⟩
      rintro ⟨x, y, rfl⟩
      have h8 := litOk (G := GP) (l := c!"*/") (r := y ++ (c!"*/" ++ r))
      rw [← List.append_assoc] at h8
      exact hl x (c!"*/" ++ y) (by simp) (by simp) _ _ h8
    · exact (inv_or_nil h).elim

theorem gap_inv {s r ns} (h : Peg GP eGap s (.ok r ns)) : ∃ g : Gap, g.OK ∧ s = g.str ++ r ∧ GapEnd g r := by
  rcases inv_or_cons h with h | ⟨_, h⟩
  · obtain ⟨rfl, _⟩ := inv_lit h
    exact ⟨.sp, trivial, rfl, fun h => by cases h⟩
  · rcases inv_or_cons h with h | ⟨_, h⟩
    · obtain ⟨e, rfl, he⟩ := eol_inv h
      refine ⟨.eol e, trivial, rfl, fun hc => he ?_⟩
      cases e <;> first | rfl | cases hc
    · rcases inv_or_cons h with h | ⟨_, h⟩
      · obtain ⟨g, _, h1, h2, h3⟩ := comment_inv h
        exact ⟨g, h1, h2, h3⟩
      · exact (inv_or_nil h).elim

theorem gapsOK_cons {g : Gap} {gs : Gaps} {r : Str} (h : g.OK) (he : GapEnd g (gapsStr gs ++ r)) (hs : GapsOK gs) : GapsOK (g :: gs) := by
  cases gs with
  | nil => exact h
  | cons x gs =>
    refine ⟨h, ?_, hs⟩
    rintro ⟨hc, rfl⟩
    exact he hc rfl

theorem gapsStr_append : ∀ a b, gapsStr (a ++ b) = gapsStr a ++ gapsStr b
  | [], b => rfl
  | g :: a, b => by rw [List.cons_append, gapsStr, gapsStr, gapsStr_append a b, List.append_assoc]

theorem ws_inv {s r ns} (h : Peg GP (.ruleName c!"_") s (.ok r ns)) :
    ∃ gs, GapsOK gs ∧ s = gapsStr gs ++ r ∧ Peg GP eGap r .fail := by
  obtain ⟨cs, -, h0⟩ := inv_call gp_ws h
  obtain ⟨nss, h1, -, -, hf⟩ := inv_rep h0
  suffices ∃ gs, GapsOK gs ∧ s = gapsStr gs ++ r by
    obtain ⟨gs, h2, h3⟩ := this
    exact ⟨gs, h2, h3, hf⟩
  clear h h0 hf
  induction h1 with
  | nil s => exact ⟨[], trivial, rfl⟩
  | cons h2 _ ih =>
    obtain ⟨gs, h3, rfl⟩ := ih
    obtain ⟨g, h4, rfl, h5⟩ := gap_inv h2
    exact ⟨g :: gs, gapsOK_cons h4 h5 h3, by simp [gapsStr]⟩

/-- nothing is left after blanks -/
theorem ws_again {s r ns} (hf : Peg GP eGap s .fail) (h : Peg GP (.ruleName c!"_") s (.ok r ns)) : s = r := by
  have := peg_det h (.call_ok gp_ws (.rep_stop (by simp) hf))
  cases this
  rfl

theorem one_inv {s r ns} (h : Peg GP (.ruleName c!"_1") s (.ok r ns)) :
    ∃ g : Gap, g.OK ∧ g.isComment = false ∧ s = g.str ++ r ∧ GapEnd g r := by
  obtain ⟨cs, -, h⟩ := inv_call gp_one h
  rcases inv_or_cons h with h | ⟨_, h⟩
  · obtain ⟨rfl, _⟩ := inv_lit h
    exact ⟨.sp, trivial, rfl, rfl, fun h => by cases h⟩
  · rcases inv_or_cons h with h | ⟨_, h⟩
    · obtain ⟨e, rfl, he⟩ := eol_inv h
      refine ⟨.eol e, trivial, rfl, rfl, fun hc => he ?_⟩
      cases e <;> first | rfl | cases hc
    · exact (inv_or_nil h).elim

theorem sep_inv {s q r n1 n2} (h1 : Peg GP (.ruleName c!"_1") s (.ok q n1)) (h2 : Peg GP (.ruleName c!"_") q (.ok r n2)) :
    ∃ g, SepOK g ∧ s = gapsStr g ++ r := by
  obtain ⟨g, h3, h4, rfl, h5⟩ := one_inv h1
  obtain ⟨gs, h6, rfl, _⟩ := ws_inv h2
  exact ⟨g :: gs, ⟨gapsOK_cons h3 h5 h6, g, gs, rfl, h4⟩, by simp [gapsStr]⟩

theorem term_inv {s q r n1 n2} (h1 : Peg GP (.ruleName c!"_eol") s (.ok q n1)) (h2 : Peg GP (.ruleName c!"_") q (.ok r n2)) :
    ∃ t : Term, t.OK ∧ s = gapsStr t.gaps ++ r ∧ Peg GP eGap r .fail := by
  obtain ⟨gs, h3, rfl, hf⟩ := ws_inv h2
  obtain ⟨cs, rfl, h⟩ := inv_call gp_weol h1
  obtain ⟨q, n3, n4, h4, h5, rfl⟩ := inv_and h
  obtain ⟨q', n5, n6, h6, h7, rfl⟩ := inv_and h5
  obtain ⟨rfl, _⟩ := inv_and_end h7
  obtain ⟨e, rfl, he⟩ := eol_inv h6
  obtain ⟨nss, h8, rfl, -, -⟩ := inv_rep h4
  have h9 : GapsOK (.eol e :: gs) := by
    refine gapsOK_cons (r := r) trivial (fun hc => he ?_) h3
    cases e <;> first | rfl | cases hc
  suffices ∃ b : Gaps, GapsOK (b ++ .eol e :: gs) ∧ (∀ g ∈ b, g.isEol = false) ∧ s = gapsStr b ++ (e.str ++ (gapsStr gs ++ r)) by
    obtain ⟨b, hb1, hb2, rfl⟩ := this
    refine ⟨⟨b, e, gs⟩, ⟨hb1, hb2⟩, ?_, hf⟩
    rw [Term.gaps, gapsStr_append, gapsStr, Gap.str]
    simp
  clear h h1 h2 h4 h5 h6
  generalize hw : e.str ++ (gapsStr gs ++ r) = w at h8
  induction h8 with
  | nil s => exact ⟨[], h9, by simp, rfl⟩
  | @cons s q r' ns nss h10 _ ih =>
    obtain ⟨b, hb1, hb2, rfl⟩ := ih hw
    have : ∃ g : Gap, g.OK ∧ g.isEol = false ∧ s = g.str ++ (gapsStr b ++ r') ∧ GapEnd g (gapsStr b ++ r') := by
      rcases inv_or_cons h10 with h | ⟨_, h⟩
      · obtain ⟨rfl, _⟩ := inv_lit h
        exact ⟨.sp, trivial, rfl, rfl, fun h => by cases h⟩
      · rcases inv_or_cons h with h | ⟨_, h⟩
        · obtain ⟨g, hc, h1, h2, h3⟩ := comment_inv h
          refine ⟨g, h1, ?_, h2, h3⟩
          cases g <;> first | rfl | cases hc
        · exact (inv_or_nil h).elim
    obtain ⟨g, hg1, hg2, rfl, hg3⟩ := this
    refine ⟨g :: b, ?_, ?_, by rw [gapsStr, List.append_assoc]⟩
    · rw [List.cons_append]
      refine gapsOK_cons (r := r) hg1 ?_ hb1
      rw [gapsStr_append, gapsStr, Gap.str]
      rw [← hw] at hg3
      simpa using hg3
    · intro x hx
      rcases List.mem_cons.mp hx with rfl | hx
      · exact hg2
      · exact hb2 x hx

/-! ### Leaves -/

theorem symbol_inv {s r ns} (h : Peg GP (.ruleName c!"symbol") s (.ok r ns)) : ∃ v, ValidSymbol v ∧ s = v ++ r := by
  obtain ⟨cs, -, h⟩ := inv_call gp_symbol h
  obtain ⟨v, h1, h2, _⟩ := symbol_shape h
  exact ⟨v, h1, h2⟩

theorem dots_inv {s nss r} (h : Star GP (.and [.simple (.literal c!"."), .ruleName c!"symbol"]) s nss r) : ∃ t, DottedTail t ∧ s = t ++ r := by
  induction h with
  | nil s => exact ⟨[], .nil, rfl⟩
  | cons h1 _ ih =>
    obtain ⟨t, ht, rfl⟩ := ih
    obtain ⟨q, n1, n2, h2, h3, rfl⟩ := inv_and h1
    obtain ⟨rfl, _⟩ := inv_lit h2
    obtain ⟨q', n3, n4, h4, h5, rfl⟩ := inv_and h3
    obtain ⟨rfl, _⟩ := inv_and_end h5
    obtain ⟨v, hv, rfl⟩ := symbol_inv h4
    exact ⟨_, .cons hv ht, by simp⟩

theorem name_inv {s r ns} (h : Peg GP (.ruleName c!"rule_name") s (.ok r ns)) : ∃ n, ValidName n ∧ s = n ++ r := by
  obtain ⟨cs, -, h⟩ := inv_call gp_rule_name h
  obtain ⟨q, n1, n2, h1, h2, rfl⟩ := inv_and h
  obtain ⟨q', n3, n4, h3, h4, rfl⟩ := inv_and h2
  obtain ⟨q'', n5, n6, h5, h6, rfl⟩ := inv_and h4
  obtain ⟨rfl, _⟩ := inv_and_end h6
  obtain ⟨v, hv, rfl⟩ := symbol_inv h3
  obtain ⟨nss, h7, rfl, _, _⟩ := inv_rep h5
  obtain ⟨t, ht, rfl⟩ := dots_inv h7
  rcases inv_opt h1 with h | ⟨rfl, _⟩
  · obtain ⟨rfl, _⟩ := inv_lit h
    exact ⟨c!"." ++ v ++ t, ⟨_, v, t, Or.inr rfl, hv, ht, rfl⟩, by simp⟩
  · exact ⟨v ++ t, ⟨[], v, t, Or.inl rfl, hv, ht, by simp⟩, by simp⟩

theorem modName_inv {s r ns} (h : Peg GP (.ruleName c!"mod_name") s (.ok r ns)) : ∃ n, ValidSymbol n ∧ s = n ++ r := by
  obtain ⟨cs, -, h⟩ := inv_call gp_mod_name h
  exact symbol_inv h

theorem sq_inv {s r ns} (h : Peg GP (.ruleName c!"_'") s (.ok r ns)) : s = '\'' :: r := by
  obtain ⟨cs, -, h⟩ := inv_call gp_sq h
  exact (inv_lit h).1

theorem dq_inv {s r ns} (h : Peg GP (.ruleName c!"_\"") s (.ok r ns)) : s = '"' :: r := by
  obtain ⟨cs, -, h⟩ := inv_call gp_dq h
  exact (inv_lit h).1

theorem escTail_less (p r : Str) (h : EscTail (p ++ ['"'])) : EscTail (p ++ '"' :: r) := by
  rw [escTail_iff] at h ⊢
  rcases h with ⟨x, u, e, hx⟩ | ⟨a, b, u, e, ha, hb⟩
  · left
    cases p with
    | nil => exact ⟨_, _, rfl, by simp⟩
    | cons y p => cases e; exact ⟨_, _, rfl, hx⟩
  · right
    match p, e with
    | [], e => cases e
    | [x], e => cases e
    | [x, y], e => cases e
    | [x, y, z], e =>
      cases e
      exact absurd hb (by decide)
    | x :: y :: z :: w :: p, e => cases e; exact ⟨_, _, _, rfl, ha, hb⟩

/-- a completed escape is read as one -/
theorem esc_starts {t : Str} (h : EscTail t) : ∃ q ns, Peg GP (.ruleName c!"esc_char") ('\\' :: t) (.ok q ns) ∨
    (Peg GP (.ruleName c!"hex_char") ('\\' :: t) (.ok q ns)) := by
  rcases (escTail_iff t).1 h with ⟨x, u, rfl, hx⟩ | ⟨a, b, u, rfl, ha, hb⟩
  · have : ∃ e : Esc, e.letter = x := by
      rcases hx with rfl | rfl | rfl | rfl | rfl
      · exact ⟨.cr, rfl⟩
      · exact ⟨.nl, rfl⟩
      · exact ⟨.tab, rfl⟩
      · exact ⟨.bs, rfl⟩
      · exact ⟨.dq, rfl⟩
    obtain ⟨e, rfl⟩ := this
    exact ⟨_, _, Or.inl (esc_ok e u)⟩
  · exact ⟨_, _, Or.inr (.call_ok gp_hex_char (andC (litOk (l := c!"\\0x")) (andC (.class_ok _ _ a _ ((inClass_hex a).2 ha))
      (and1 (.class_ok _ _ b _ ((inClass_hex b).2 hb))))))⟩

theorem esc_inv {s r ns} (h : Peg GP (.ruleName c!"esc_char") s (.ok r ns)) : ∃ e : Esc, s = (Piece.esc e).str ++ r := by
  obtain ⟨cs, -, h⟩ := inv_call gp_esc_char h
  obtain ⟨x, hx, h⟩ := inv_or h
  simp only [List.mem_cons, List.not_mem_nil, or_false] at hx
  rcases hx with rfl | rfl | rfl | rfl | rfl
  · exact ⟨.cr, (inv_lit h).1⟩
  · exact ⟨.nl, (inv_lit h).1⟩
  · exact ⟨.tab, (inv_lit h).1⟩
  · exact ⟨.bs, (inv_lit h).1⟩
  · exact ⟨.dq, (inv_lit h).1⟩

theorem hex_inv {s r ns} (h : Peg GP (.ruleName c!"hex_char") s (.ok r ns)) : ∃ a b, HexDigit a ∧ HexDigit b ∧ s = (Piece.hex a b).str ++ r := by
  obtain ⟨cs, -, h⟩ := inv_call gp_hex_char h
  obtain ⟨q, n1, n2, h1, h2, rfl⟩ := inv_and h
  obtain ⟨rfl, _⟩ := inv_lit h1
  obtain ⟨q, n3, n4, h3, h4, rfl⟩ := inv_and h2
  obtain ⟨q', n5, n6, h5, h6, rfl⟩ := inv_and h4
  obtain ⟨rfl, _⟩ := inv_and_end h6
  obtain ⟨a, rfl, ha, _⟩ := inv_class h3
  obtain ⟨b, rfl, hb, _⟩ := inv_class h5
  exact ⟨a, b, (inClass_hex a).1 ha, (inClass_hex b).1 hb, rfl⟩

theorem pieces_inv {s nss w} (h : Star GP ePiece s nss w) {r} (hw : w = '"' :: r) : ∃ ps, PiecesOK ps ∧ s = piecesStr ps ++ w := by
  induction h with
  | nil s => exact ⟨[], trivial, rfl⟩
  | @cons s q r' ns nss h1 _ ih =>
    obtain ⟨ps, hps, rfl⟩ := ih hw
    rcases inv_or_cons h1 with h | ⟨hf1, h⟩
    · obtain ⟨e, rfl⟩ := esc_inv h
      exact ⟨.esc e :: ps, hps, by rw [piecesStr, List.append_assoc]⟩
    · rcases inv_or_cons h with h | ⟨hf2, h⟩
      · obtain ⟨a, b, ha, hb, rfl⟩ := hex_inv h
        exact ⟨.hex a b :: ps, ⟨ha, hb, hps⟩, by rw [piecesStr, List.append_assoc]⟩
      · rcases inv_or_cons h with h | ⟨_, h⟩
        · obtain ⟨q1, n1, n2, h3, h4, rfl⟩ := inv_and h
          obtain ⟨rfl, _, hn⟩ := inv_not h3
          obtain ⟨q2, n3, n4, h5, h6, rfl⟩ := inv_and h4
          obtain ⟨c, rfl, _⟩ := inv_dot h5
          obtain ⟨rfl, _⟩ := inv_and_end h6
          refine ⟨.plain c :: ps, ⟨?_, ?_, hps⟩, by rw [piecesStr]; rfl⟩
          · rintro rfl
            exact hn _ _ dq_ok
          · rintro rfl hesc
            have := escTail_less _ r hesc
            rw [← hw] at this
            obtain ⟨q, ns, hq⟩ := esc_starts this
            rcases hq with hq | hq
            · cases peg_det hf1 hq
            · cases peg_det hf2 hq
        · exact (inv_or_nil h).elim

theorem literal_inv {s r ns} (h : Peg GP (.ruleName c!"literal") s (.ok r ns)) : ∃ l : Lit, l.OK ∧ s = l.str ++ r := by
  obtain ⟨cs, -, h⟩ := inv_call gp_literal h
  rcases inv_or_cons h with h | ⟨_, h⟩
  · obtain ⟨cs, -, h⟩ := inv_call gp_lit_noesc h
    obtain ⟨q, n1, n2, h1, h2, rfl⟩ := inv_and h
    obtain ⟨q', n3, n4, h3, h4, rfl⟩ := inv_and h2
    obtain ⟨q'', n5, n6, h5, h6, rfl⟩ := inv_and h4
    obtain ⟨rfl, _⟩ := inv_and_end h6
    have e1 := sq_inv h1
    have e2 := sq_inv h5
    subst e1 e2
    obtain ⟨nss, h7, rfl, _, _⟩ := inv_rep h3
    obtain ⟨l, rfl, hl⟩ := chars_inv h7
    refine ⟨.single l, ?_, by simp [Lit.str]⟩
    intro hm
    obtain ⟨x, y, rfl⟩ := List.append_of_mem hm
    exact hl x ('\'' :: y) rfl (by simp) _ _ sq_ok
  · rcases inv_or_cons h with h | ⟨_, h⟩
    · obtain ⟨cs, -, h⟩ := inv_call gp_lit_esc h
      obtain ⟨q, n1, n2, h1, h2, rfl⟩ := inv_and h
      obtain ⟨q', n3, n4, h3, h4, rfl⟩ := inv_and h2
      obtain ⟨q'', n5, n6, h5, h6, rfl⟩ := inv_and h4
      obtain ⟨rfl, _⟩ := inv_and_end h6
      have e1 := dq_inv h1
      have e2 := dq_inv h5
      subst e1 e2
      obtain ⟨nss, h7, rfl, _, _⟩ := inv_rep h3
      obtain ⟨ps, hps, rfl⟩ := pieces_inv h7 rfl
      exact ⟨.double ps, hps, by simp [Lit.str]⟩
    · exact (inv_or_nil h).elim

theorem class_inv {s r ns} (h : Peg GP (.ruleName c!"match") s (.ok r ns)) : ∃ cs rs, ClassOK cs rs ∧ s = (Atom.cls cs rs).str ++ r := by
  obtain ⟨cs, -, h⟩ := inv_call gp_match h
  obtain ⟨q, n1, n2, h1, h2, rfl⟩ := inv_and h
  obtain ⟨rfl, rfl⟩ := inv_lit h1
  obtain ⟨q2, n3, n4, h3, h4, rfl⟩ := inv_and h2
  obtain ⟨q3, n5, n6, h5, h6, rfl⟩ := inv_and h4
  obtain ⟨rfl, rfl⟩ := inv_lit h5
  obtain ⟨rfl, rfl⟩ := inv_and_end h6
  rcases inv_or_cons h3 with h7 | ⟨_, h7⟩
  · obtain ⟨q4, n7, n8, h8, h9, rfl⟩ := inv_and h7
    obtain ⟨q5, n9, n10, h10, h11, rfl⟩ := inv_and h9
    obtain ⟨rfl, rfl⟩ := inv_and_end h11
    obtain ⟨cs, rfl, h12⟩ := inv_call gp_mchars h8
    obtain ⟨l, rfl, hl, h13, h14, h15, h16⟩ := mchars_shape h12
    obtain ⟨nss, h17, rfl, _, _⟩ := inv_rep h10
    obtain ⟨rs, rfl, _, h18⟩ := ranges_star h17
    refine ⟨l, rs, ⟨Or.inl hl, h14, h15, ?_⟩, by simp [Atom.str, rangesStr_eq]⟩
    intro _ p hp
    cases rs with
    | nil => simp at hp
    | cons x rs =>
      simp only [List.head?_cons, Option.mem_some_iff] at hp
      subst hp
      intro e
      exact h16 ('-' :: x.2 :: (rangesText rs ++ (c!"]" ++ r))) (by simp [rangesText, e])
  · rcases inv_or_cons h7 with h8 | ⟨_, h8⟩
    · obtain ⟨nss, h17, rfl, hlen, _⟩ := inv_rep h8
      obtain ⟨rs, rfl, h19, h18⟩ := ranges_star h17
      have hrs : rs ≠ [] := by intro e; rw [e] at h19; simp at h19; rw [← h19] at hlen; simp at hlen
      exact ⟨[], rs, ⟨Or.inr hrs, by simp, by simp, by simp⟩, by simp [Atom.str, rangesStr_eq]⟩
    · exact absurd h8 inv_or_nil

/-! ### Expressions -/

theorem err_inv {s r ns} (h : Peg GP (.ruleName c!"error") s (.ok r ns)) : ∃ g1 g2 l g3, ErrOK g1 g2 l g3 ∧ s = errStr g1 g2 l g3 ++ r := by
  obtain ⟨cs, -, h⟩ := inv_call gp_error h
  obtain ⟨_, _, _, h1, h2, rfl⟩ := inv_and h
  obtain ⟨_, _, _, h3, h4, rfl⟩ := inv_and h2
  obtain ⟨_, _, _, h5, h6, rfl⟩ := inv_and h4
  obtain ⟨_, _, _, h7, h8, rfl⟩ := inv_and h6
  obtain ⟨_, _, _, h9, h10, rfl⟩ := inv_and h8
  obtain ⟨_, _, _, h11, h12, rfl⟩ := inv_and h10
  obtain ⟨_, _, _, h13, h14, rfl⟩ := inv_and h12
  obtain ⟨rfl, _⟩ := inv_and_end h14
  obtain ⟨rfl, _⟩ := inv_lit h1
  obtain ⟨g1, k1, rfl, _⟩ := ws_inv h3
  obtain ⟨rfl, _⟩ := inv_lit h5
  obtain ⟨g2, k2, rfl, _⟩ := ws_inv h7
  obtain ⟨l, kl, rfl⟩ := literal_inv h9
  obtain ⟨g3, k3, rfl, _⟩ := ws_inv h11
  obtain ⟨rfl, _⟩ := inv_lit h13
  exact ⟨g1, g2, l, g3, ⟨k1, k2, kl, k3⟩, by simp [errStr]⟩

/-- `error` and a literal in parentheses is read as `error(...)` -/
theorem looks_error {i : Syntax.Item} {t : Syntax.Tail} (hi : i.OK) (ht : t.OK) (h : LooksLikeError i t) (r : Str) :
    ∃ q ns, Peg GP (.ruleName c!"error") (i.str ++ (t.str ++ r)) (.ok q ns) := by
  cases i with
  | plain a =>
    cases a with
    | ref n =>
      cases t with
      | item g j t =>
        obtain ⟨rfl, h⟩ := h
        rw [Tail.OK] at ht
        have key : ∀ (g1 g2 : Gaps) (l : Lit) (u : Str), GapsOK g1 → l.OK → GapsOK g2 →
            ∃ q ns, Peg GP (.ruleName c!"error") (c!"error" ++ (gapsStr g ++ ((Atom.par g1 (.one (.item (.plain (.lit l)) .nil)) g2).str ++ u))) (.ok q ns) := by
          intro g1 g2 l u h1 h2 h3
          obtain ⟨ns, h4, _⟩ := err_reads (g1 := g) (g2 := g1) (l := l) (g3 := g2) ⟨ht.1.1, h1, h2, h3⟩ u
          have e : errStr g g1 l g2 ++ u = c!"error" ++ (gapsStr g ++ ((Atom.par g1 (.one (.item (.plain (.lit l)) .nil)) g2).str ++ u)) := by
            simp [errStr, Atom.str, Alt.str, Seq.str, Item.str, Tail.str]
          rw [← e]
          exact ⟨_, _, h4⟩
        have hj := ht.2.1
        rw [Item.str, Atom.str, Tail.str]
        simp only at h
        split at h
        · rw [Item.OK, Atom.OK, Alt.OK, Seq.OK, Item.OK, Atom.OK] at hj
          rw [Item.str, List.append_assoc, List.append_assoc]
          exact key _ _ _ _ hj.1 hj.2.1.1 hj.2.2
        · rw [Item.OK, Atom.OK, Alt.OK, Seq.OK, Item.OK, Atom.OK] at hj
          rw [Item.str, List.append_assoc, List.append_assoc, List.append_assoc]
          exact key _ _ _ _ hj.1 hj.2.1.1 hj.2.2
        · rw [Item.OK, Atom.OK, Alt.OK, Seq.OK, Item.OK, Atom.OK] at hj
          rw [Item.str, List.append_assoc, List.append_assoc, List.append_assoc]
          exact key _ _ _ _ hj.1 hj.2.1.1 hj.2.2
        · rw [Item.OK, Atom.OK, Alt.OK, Seq.OK, Item.OK, Atom.OK] at hj
          rw [Item.str, List.append_assoc, List.append_assoc, List.append_assoc]
          exact key _ _ _ _ hj.1 hj.2.1.1 hj.2.2
        · exact h.elim
      | _ => exact h.elim
    | _ => exact h.elim
  | _ => exact h.elim

/-- an end of line comes later -/
def HasEol (r : Str) : Prop := ∃ c ∈ r, c = '\n' ∨ c = '\r'

theorem HasEol.append {r : Str} (h : HasEol r) (p : Str) : HasEol (p ++ r) := by
  obtain ⟨c, hc, h⟩ := h
  exact ⟨c, List.mem_append_right _ hc, h⟩

theorem HasEol.cons {r : Str} (h : HasEol r) (c : Char) : HasEol (c :: r) := h.append [c]

theorem HasEol.split : ∀ {r : Str}, HasEol r → ∃ b c t, r = b ++ c :: t ∧ (c = '\n' ∨ c = '\r') ∧ ∀ d ∈ b, d ≠ '\n' ∧ d ≠ '\r'
  | [], h => by obtain ⟨c, hc, _⟩ := h; cases hc
  | x :: r, h => by
    by_cases hx : x = '\n' ∨ x = '\r'
    · exact ⟨[], x, r, rfl, hx, by simp⟩
    · obtain ⟨c, hc, h⟩ := h
      have hr : HasEol r := by
        rcases List.mem_cons.mp hc with rfl | hc
        · exact absurd h hx
        · exact ⟨c, hc, h⟩
      obtain ⟨b, c, t, rfl, h1, h2⟩ := HasEol.split hr
      refine ⟨x :: b, c, t, rfl, h1, ?_⟩
      intro d hd
      rcases List.mem_cons.mp hd with rfl | hd
      · tauto
      · exact h2 d hd

theorem eol_of {c : Char} (h : c = '\n' ∨ c = '\r') (t : Str) : ∃ (e : Eol) (r : Str), c :: t = e.str ++ r ∧ (e = .cr → r.head? ≠ some '\n') := by
  obtain ⟨q, ns, h⟩ := eol_starts h t
  obtain ⟨e, h1, h2⟩ := eol_inv h
  exact ⟨e, q, h1, h2⟩

/-- two slashes start a comment -/
theorem slashes {u : Str} (h : HasEol u) : ∃ q ns, Peg GP eGap ('/' :: '/' :: u) (.ok q ns) := by
  obtain ⟨b, c, t, rfl, hc, hb⟩ := h.split
  obtain ⟨e, r, h1, h2⟩ := eol_of hc t
  rw [h1]
  obtain ⟨ns, h3⟩ := gap_ok (g := .line b e) (r := r) hb (fun he => h2 (by cases e <;> first | rfl | cases he))
  have e0 : (Gap.line b e).str ++ r = '/' :: '/' :: (b ++ (e.str ++ r)) := by simp [Gap.str]
  rw [e0] at h3
  exact ⟨_, _, h3⟩

def ExprInv (s : Str) : Prop := ∀ r ns, HasEol r → Peg GP (.ruleName c!"or") s (.ok r ns) → ∃ a : Syntax.Alt, a.OK ∧ s = a.str ++ r

def SeqInv (s : Str) : Prop := ∀ r ns, HasEol r → Peg GP (.ruleName c!"and") s (.ok r ns) →
  (∃ g1 g2 l g3, ErrOK g1 g2 l g3 ∧ s = errStr g1 g2 l g3 ++ r) ∨
  ∃ (i : Syntax.Item) (t : Syntax.Tail), i.OK ∧ t.OK ∧ ¬ LooksLikeError i t ∧ s = i.str ++ (t.str ++ r) ∧ Peg GP eTail r .fail

def AtomInv (s : Str) : Prop := ∀ r ns, HasEol r → Peg GP (.ruleName c!"atom_or_par") s (.ok r ns) → ∃ a : Syntax.Atom, a.OK ∧ s = a.str ++ r

theorem atom_inv {s : Str} (ih : ∀ s' : Str, s'.length < s.length → ExprInv s') : AtomInv s := by
  intro r ns he h
  obtain ⟨cs, -, h⟩ := inv_call gp_atom_or_par h
  rcases inv_or_cons h with h | ⟨_, h⟩
  · obtain ⟨cs, -, h⟩ := inv_call gp_atom h
    rcases inv_or_cons h with h | ⟨_, h⟩
    · obtain ⟨l, hl, rfl⟩ := literal_inv h
      exact ⟨.lit l, by rw [Atom.OK]; exact hl, by rw [Atom.str]⟩
    · rcases inv_or_cons h with h | ⟨_, h⟩
      · obtain ⟨cs, rs, hc, rfl⟩ := class_inv h
        exact ⟨.cls cs rs, by rw [Atom.OK]; exact hc, rfl⟩
      · rcases inv_or_cons h with h | ⟨_, h⟩
        · obtain ⟨n, hn, rfl⟩ := name_inv h
          exact ⟨.ref n, by rw [Atom.OK]; exact hn, by rw [Atom.str]⟩
        · rcases inv_or_cons h with h | ⟨_, h⟩
          · obtain ⟨cs, -, h⟩ := inv_call gp_dot h
            obtain ⟨rfl, _⟩ := inv_lit h
            exact ⟨.dot, by rw [Atom.OK]; trivial, by rw [Atom.str]⟩
          · exact (inv_or_nil h).elim
  · rcases inv_or_cons h with h | ⟨_, h⟩
    · obtain ⟨cs, -, h⟩ := inv_call gp_parenth h
      obtain ⟨_, _, _, h1, h2, rfl⟩ := inv_and h
      obtain ⟨_, _, _, h3, h4, rfl⟩ := inv_and h2
      obtain ⟨_, _, _, h5, h6, rfl⟩ := inv_and h4
      obtain ⟨_, _, _, h7, h8, rfl⟩ := inv_and h6
      obtain ⟨_, _, _, h9, h10, rfl⟩ := inv_and h8
      obtain ⟨rfl, _⟩ := inv_and_end h10
      obtain ⟨rfl, _⟩ := inv_lit h1
      obtain ⟨g1, k1, rfl, _⟩ := ws_inv h3
      obtain ⟨g2, k2, rfl, _⟩ := ws_inv h7
      obtain ⟨cs, -, h5⟩ := inv_call gp_expr h5
      rcases inv_or_cons h9 with h | ⟨_, h⟩
      · obtain ⟨rfl, _⟩ := inv_lit h
        obtain ⟨e, ke, rfl⟩ := ih _ (by simp; omega) _ _ ((he.cons _).append _) h5
        exact ⟨.par g1 e g2, by rw [Atom.OK]; exact ⟨k1, ke, k2⟩, by simp [Atom.str]⟩
      · rcases inv_or_cons h with h | ⟨_, h⟩
        · cases h
        · exact (inv_or_nil h).elim
    · exact (inv_or_nil h).elim

theorem item_inv {s : Str} (ih : ∀ s' : Str, s'.length < s.length → ExprInv s') {r ns} (he : HasEol r)
    (h : Peg GP (.ruleName c!"rep_or_neg") s (.ok r ns)) : ∃ i : Syntax.Item, i.OK ∧ s = i.str ++ r := by
  obtain ⟨cs, -, h⟩ := inv_call gp_rep_or_neg h
  rcases inv_or_cons h with h | ⟨_, h⟩
  · obtain ⟨_, _, _, h1, h2, rfl⟩ := inv_and h
    obtain ⟨_, _, _, h3, h4, rfl⟩ := inv_and h2
    obtain ⟨rfl, _⟩ := inv_and_end h4
    rcases inv_opt h3 with h | ⟨rfl, _⟩
    · obtain ⟨x, hx, h⟩ := inv_or h
      simp only [List.mem_cons, List.not_mem_nil, or_false] at hx
      rcases hx with rfl | rfl | rfl
      · obtain ⟨rfl, _⟩ := inv_lit h
        obtain ⟨a, ka, rfl⟩ := atom_inv ih _ _ (he.append _) h1
        exact ⟨.star a, by rw [Item.OK]; exact ka, by simp [Item.str]⟩
      · obtain ⟨rfl, _⟩ := inv_lit h
        obtain ⟨a, ka, rfl⟩ := atom_inv ih _ _ (he.append _) h1
        exact ⟨.plus a, by rw [Item.OK]; exact ka, by simp [Item.str]⟩
      · obtain ⟨rfl, _⟩ := inv_lit h
        obtain ⟨a, ka, rfl⟩ := atom_inv ih _ _ (he.append _) h1
        exact ⟨.opt a, by rw [Item.OK]; exact ka, by simp [Item.str]⟩
    · obtain ⟨a, ka, rfl⟩ := atom_inv ih _ _ he h1
      exact ⟨.plain a, by rw [Item.OK]; exact ka, by rw [Item.str]⟩
  · rcases inv_or_cons h with h | ⟨_, h⟩
    · obtain ⟨_, _, _, h1, h2, rfl⟩ := inv_and h
      obtain ⟨_, _, _, h3, h4, rfl⟩ := inv_and h2
      obtain ⟨rfl, _⟩ := inv_and_end h4
      obtain ⟨rfl, _⟩ := inv_lit h1
      obtain ⟨a, ka, rfl⟩ := atom_inv (fun s' hs => ih s' (by simp; omega)) _ _ he h3
      exact ⟨.not a, by rw [Item.OK]; exact ka, by simp [Item.str]⟩
    · exact (inv_or_nil h).elim

theorem star_suffix {G : Str → Option Expr} {e s nss r} (h : Star G e s nss r) : r <:+ s := by
  induction h with
  | nil s => exact List.suffix_refl s
  | cons h1 _ ih => exact ih.trans (peg_suffix h1 rfl)

theorem tail_inv {N : Nat} (ih : ∀ s' : Str, s'.length < N → SeqInv s') {s nss r} (he : HasEol r) (hs : s.length ≤ N) (h : Star GP eTail s nss r) :
    ∃ t : Syntax.Tail, t.OK ∧ s = t.str ++ r := by
  induction h with
  | nil s => exact ⟨.nil, by rw [Tail.OK]; trivial, by rw [Tail.str]; rfl⟩
  | @cons s q r ns nss h1 hstar iht =>
    obtain ⟨_, _, _, h2, h3, rfl⟩ := inv_and h1
    obtain ⟨_, _, _, h4, h5, rfl⟩ := inv_and h3
    obtain ⟨_, _, _, h6, h7, rfl⟩ := inv_and h5
    obtain ⟨_, _, _, h8, h9, rfl⟩ := inv_and h7
    obtain ⟨rfl, _⟩ := inv_and_end h9
    obtain ⟨rfl, _, _⟩ := inv_not h6
    obtain ⟨g, hg, rfl⟩ := sep_inv h2 h4
    have hq : HasEol q := by
      obtain ⟨p, hp⟩ := star_suffix hstar
      rw [← hp]
      exact he.append p
    have hlen : 0 < (gapsStr g).length := by
      obtain ⟨x, gs, rfl, _⟩ := hg.2
      obtain ⟨c, u, e, _⟩ := gap_start x
      rw [gapsStr, e]
      simp
    rcases ih _ (by simp at hs; omega) _ _ hq h8 with ⟨g1, g2, l, g3, herr, rfl⟩ | ⟨i, t, hi, ht, hn, rfl, hf⟩
    · obtain ⟨t, ht, rfl⟩ := iht he (by simp at hs; omega)
      exact ⟨.err g g1 g2 l g3 t, by rw [Tail.OK]; exact ⟨hg, herr, ht⟩, by rw [Tail.str]; simp⟩
    · cases hstar with
      | nil => exact ⟨.item g i t, by rw [Tail.OK]; exact ⟨hg, hi, ht, hn⟩, by rw [Tail.str]; simp⟩
      | cons hx _ => cases peg_det hf hx

theorem seq_inv {s : Str} (ih : ∀ s' : Str, s'.length < s.length → ExprInv s' ∧ SeqInv s') : SeqInv s := by
  intro r ns he h
  obtain ⟨cs, -, h⟩ := inv_call gp_and h
  rcases inv_or_cons h with h | ⟨hf, h⟩
  · exact Or.inl (err_inv h)
  · rcases inv_or_cons h with h | ⟨_, h⟩
    · right
      obtain ⟨_, _, _, h1, h2, rfl⟩ := inv_and h
      obtain ⟨_, _, _, h3, h4, rfl⟩ := inv_and h2
      obtain ⟨rfl, _⟩ := inv_and_end h4
      obtain ⟨nss, h5, rfl, _, h6⟩ := inv_rep h3
      obtain ⟨p, hp⟩ := star_suffix h5
      obtain ⟨i, hi, rfl⟩ := item_inv (fun s' hs => (ih s' hs).1) (hp ▸ he.append p) h1
      have hlen : 0 < i.str.length := by
        obtain ⟨c, u, e, _⟩ := item_start hi
        rw [e]
        simp
      obtain ⟨t, ht, rfl⟩ := tail_inv (fun s' hs => (ih s' hs).2) he (by simp) h5
      refine ⟨i, t, hi, ht, ?_, rfl, h6⟩
      intro hl
      obtain ⟨q, ns, hq⟩ := looks_error hi ht hl r
      cases peg_det hf hq
    · exact (inv_or_nil h).elim

theorem alt_inv {s : Str} (ih : ∀ s' : Str, s'.length < s.length → ExprInv s' ∧ SeqInv s') : ExprInv s := by
  intro r ns he h
  obtain ⟨cs, -, h⟩ := inv_call gp_or h
  obtain ⟨q, _, _, h1, h2, rfl⟩ := inv_and h
  obtain ⟨_, _, _, h3, h4, rfl⟩ := inv_and h2
  obtain ⟨rfl, _⟩ := inv_and_end h4
  have hq : HasEol q := by
    obtain ⟨p, hp⟩ := peg_suffix h3 rfl
    exact hp ▸ he.append p
  have : ∃ x : Syntax.Seq, x.OK ∧ s = x.str ++ q := by
    rcases seq_inv ih _ _ hq h1 with ⟨g1, g2, l, g3, he, rfl⟩ | ⟨i, t, hi, ht, hn, rfl, _⟩
    · exact ⟨.err g1 g2 l g3, by rw [Seq.OK]; exact he, by rw [Seq.str]⟩
    · exact ⟨.item i t, by rw [Seq.OK]; exact ⟨hi, ht, hn⟩, by rw [Seq.str]; simp⟩
  obtain ⟨x, hx, rfl⟩ := this
  rcases inv_opt h3 with h | ⟨rfl, _⟩
  · obtain ⟨_, _, _, h5, h6, rfl⟩ := inv_and h
    obtain ⟨_, _, _, h7, h8, rfl⟩ := inv_and h6
    obtain ⟨_, _, _, h9, h10, rfl⟩ := inv_and h8
    obtain ⟨_, _, _, h11, h12, rfl⟩ := inv_and h10
    obtain ⟨rfl, _⟩ := inv_and_end h12
    obtain ⟨g1, k1, rfl, hgf⟩ := ws_inv h5
    obtain ⟨rfl, _⟩ := inv_lit h7
    obtain ⟨g2, k2, rfl, _⟩ := ws_inv h9
    obtain ⟨a, ha, rfl⟩ := (ih _ (by simp; omega)).1 _ _ he h11
    refine ⟨.cons x g1 g2 a, ?_, by simp [Alt.str]⟩
    rw [Alt.OK]
    refine ⟨hx, k1, ⟨k2, ?_⟩, ha⟩
    intro z hy
    cases g2 with
    | nil => cases hy
    | cons y g2 =>
      cases hy
      cases hc : z.isComment with
      | false => rfl
      | true =>
        exfalso
        have hz : ∃ u, gapsStr (z :: g2) = '/' :: u := by
          cases z with
          | line b e => exact ⟨_, by rw [gapsStr, Gap.str]; rfl⟩
          | multi b => exact ⟨_, by rw [gapsStr, Gap.str]; rfl⟩
          | _ => cases hc
        obtain ⟨u, hu⟩ := hz
        rw [hu] at hgf
        obtain ⟨q', ns', hq'⟩ := slashes (u := u ++ (a.str ++ r)) ((he.append _).append _)
        cases peg_det hgf hq'
  · exact ⟨.one x, by rw [Alt.OK]; exact hx, by rw [Alt.str]⟩

theorem expr_inv : ∀ (N : Nat) (s : Str), s.length < N → ExprInv s ∧ SeqInv s
  | 0, s, h => by omega
  | N + 1, s, h => by
    have ih : ∀ s' : Str, s'.length < s.length → ExprInv s' ∧ SeqInv s' := fun s' hs => expr_inv N s' (by omega)
    exact ⟨alt_inv ih, seq_inv ih⟩

/-! ### Definitions -/

theorem term_hasEol (t : Term) (r : Str) : HasEol (gapsStr t.gaps ++ r) := by
  have : HasEol (t.eol.str ++ (gapsStr t.after ++ r)) := by
    cases t.eol <;> exact ⟨_, List.mem_cons_self, by simp⟩
  have := this.append (gapsStr t.before)
  rw [Term.gaps, gapsStr_append, gapsStr, Gap.str]
  simpa using this

theorem rule_inv {s r ns} (h : Peg GP (.ruleName c!"rule") s (.ok r ns)) :
    ∃ gs n g1 g2 e t, GapsOK gs ∧ (Def.rule n g1 g2 e t).OK ∧ s = gapsStr gs ++ ((Def.rule n g1 g2 e t).str ++ r) ∧ Peg GP eGap r .fail := by
  obtain ⟨cs, -, h⟩ := inv_call gp_rule h
  obtain ⟨_, _, _, h1, h2, rfl⟩ := inv_and h
  obtain ⟨_, _, _, h3, h4, rfl⟩ := inv_and h2
  obtain ⟨_, _, _, h5, h6, rfl⟩ := inv_and h4
  obtain ⟨_, _, _, h7, h8, rfl⟩ := inv_and h6
  obtain ⟨_, _, _, h9, h10, rfl⟩ := inv_and h8
  obtain ⟨_, _, _, h11, h12, rfl⟩ := inv_and h10
  obtain ⟨_, _, _, h13, h14, rfl⟩ := inv_and h12
  obtain ⟨_, _, _, h15, h16, rfl⟩ := inv_and h14
  obtain ⟨rfl, _⟩ := inv_and_end h16
  obtain ⟨gs, k0, rfl, _⟩ := ws_inv h1
  obtain ⟨n, kn, rfl⟩ := name_inv h3
  obtain ⟨g1, k1, rfl, _⟩ := ws_inv h5
  obtain ⟨rfl, _⟩ := inv_lit h7
  obtain ⟨g2, k2, rfl, _⟩ := ws_inv h9
  obtain ⟨t, kt, rfl, hf⟩ := term_inv h13 h15
  obtain ⟨cs, -, h11⟩ := inv_call gp_expr h11
  obtain ⟨e, ke, rfl⟩ := (expr_inv _ _ (Nat.lt_succ_self _)).1 _ _ (term_hasEol t r) h11
  exact ⟨gs, n, g1, g2, e, t, k0, by rw [Def.OK]; exact ⟨kn, k1, k2, ke, kt⟩, by simp [Def.str], hf⟩

def DefsInv (s : Str) : Prop := ∀ r ns, Peg GP (.ruleName c!"grammar") s (.ok r ns) →
  ∃ gs ds, GapsOK gs ∧ ds.OK ∧ s = gapsStr gs ++ (Defs.str ds ++ r) ∧ Peg GP eGap r .fail

theorem module_inv {s : Str} (ih : ∀ s' : Str, s'.length < s.length → DefsInv s') {r ns} (h : Peg GP (.ruleName c!"module") s (.ok r ns)) :
    ∃ gs d, GapsOK gs ∧ d.OK ∧ s = gapsStr gs ++ (Def.str d ++ r) ∧ Peg GP eGap r .fail := by
  obtain ⟨cs, -, h⟩ := inv_call gp_module h
  obtain ⟨_, _, _, h1, h2, rfl⟩ := inv_and h
  obtain ⟨_, _, _, h3, h4, rfl⟩ := inv_and h2
  obtain ⟨_, _, _, h5, h6, rfl⟩ := inv_and h4
  obtain ⟨_, _, _, h7, h8, rfl⟩ := inv_and h6
  obtain ⟨_, _, _, h9, h10, rfl⟩ := inv_and h8
  obtain ⟨_, _, _, h11, h12, rfl⟩ := inv_and h10
  obtain ⟨_, _, _, h13, h14, rfl⟩ := inv_and h12
  obtain ⟨_, _, _, h15, h16, rfl⟩ := inv_and h14
  obtain ⟨_, _, _, h17, h18, rfl⟩ := inv_and h16
  obtain ⟨_, _, _, h19, h20, rfl⟩ := inv_and h18
  obtain ⟨rfl, _⟩ := inv_and_end h20
  obtain ⟨gs, k0, rfl, _⟩ := ws_inv h1
  obtain ⟨n, kn, rfl⟩ := modName_inv h3
  obtain ⟨g1, k1, rfl, _⟩ := ws_inv h5
  obtain ⟨rfl, _⟩ := inv_lit h7
  obtain ⟨g2, k2, rfl, hf2⟩ := ws_inv h9
  obtain ⟨g0, ds, k3, kds, e1, hf3⟩ := ih _ (by simp; omega) _ _ h11
  have e2 := ws_again hf3 h13
  subst e2
  obtain ⟨rfl, _⟩ := inv_lit h15
  obtain ⟨t, kt, rfl, hf⟩ := term_inv h17 h19
  have e3 : g0 = [] := by
    cases g0 with
    | nil => rfl
    | cons g g0 =>
      exfalso
      obtain ⟨c, u, e, hc⟩ := defs_start kds (c!"}" ++ (gapsStr t.gaps ++ r))
      rw [e] at e1
      obtain ⟨ns', hg⟩ := gap_ok (g := g) (r := gapsStr g0 ++ c :: u) k3.head (k3.gapEnd hc.noGap.ne_lf)
      rw [gapsStr, List.append_assoc] at e1
      rw [← e1] at hg
      cases peg_det hf2 hg
  subst e3
  subst e1
  exact ⟨gs, .module n g1 g2 ds t, k0, by rw [Def.OK]; exact ⟨kn, k1, k2, kds, kt⟩, by simp [Def.str, gapsStr], hf⟩

theorem defs_inv {N : Nat} (ih : ∀ s' : Str, s'.length < N → DefsInv s') {s nss r} (hs : s.length ≤ N) (h : Star GP eDefn s nss r) (hne : nss ≠ []) :
    ∃ gs ds, GapsOK gs ∧ ds.OK ∧ s = gapsStr gs ++ (Defs.str ds ++ r) ∧ Peg GP eGap r .fail := by
  induction h with
  | nil s => exact absurd rfl hne
  | @cons s q r ns nss h1 hstar iht =>
    have : ∃ gs d, GapsOK gs ∧ d.OK ∧ s = gapsStr gs ++ (Def.str d ++ q) ∧ Peg GP eGap q .fail := by
      rcases inv_or_cons h1 with h | ⟨_, h⟩
      · obtain ⟨gs, n, g1, g2, e, t, h2, h3, h4, h5⟩ := rule_inv h
        exact ⟨gs, _, h2, h3, h4, h5⟩
      · rcases inv_or_cons h with h | ⟨_, h⟩
        · exact module_inv (fun s' hs' => ih s' (by omega)) h
        · exact (inv_or_nil h).elim
    obtain ⟨gs, d, h2, h3, rfl, h5⟩ := this
    cases nss with
    | nil =>
      cases hstar
      exact ⟨gs, .one d, h2, by rw [Defs.OK]; exact h3, by rw [Defs.str], h5⟩
    | cons n nss =>
      obtain ⟨g0, ds, k1, k2, e, k3⟩ := iht (by simp at hs; omega) (by simp)
      have e3 : g0 = [] := by
        cases g0 with
        | nil => rfl
        | cons g g0 =>
          exfalso
          obtain ⟨c, u, e', hc⟩ := defs_start k2 r
          rw [e'] at e
          obtain ⟨ns', hg⟩ := gap_ok (g := g) (r := gapsStr g0 ++ c :: u) k1.head (k1.gapEnd hc.noGap.ne_lf)
          rw [gapsStr, List.append_assoc] at e
          rw [← e] at hg
          cases peg_det h5 hg
      subst e3
      subst e
      exact ⟨gs, .cons d ds, h2, by rw [Defs.OK]; exact ⟨h3, k2⟩, by rw [Defs.str]; simp [gapsStr], k3⟩

theorem grammar_inv : ∀ (N : Nat) (s : Str), s.length < N → DefsInv s
  | 0, s, h => by omega
  | N + 1, s, h => by
    have ih : ∀ s' : Str, s'.length < s.length → DefsInv s' := fun s' hs => grammar_inv N s' (by omega)
    intro r ns h
    obtain ⟨cs, -, h⟩ := inv_call gp_grammar h
    obtain ⟨nss, h1, rfl, h2, _⟩ := inv_rep h
    exact defs_inv ih (Nat.le_refl _) h1 (by intro e; rw [e] at h2; simp at h2)

/-- every text accepted by the built-in grammar is a document -/
theorem doc_inv {s ns} (h : Peg GP (.ruleName c!"main") s (.ok [] ns)) : ∃ d : Doc, d.OK ∧ d.str = s := by
  obtain ⟨cs, -, h⟩ := inv_call gp_main h
  obtain ⟨gs, ds, h1, h2, rfl, _⟩ := grammar_inv _ _ (Nat.lt_succ_self _) _ _ h
  exact ⟨⟨gs, ds⟩, ⟨h1, h2⟩, by simp [Doc.str]⟩

/-- what `rules_from_peg` accepts is the text of a document, and the result is its meaning -/
theorem rulesFromPeg_inv {s R} (h : rulesFromPeg s = .ok R) :
    Ascii s ∧ ∃ d : Doc, d.OK ∧ d.str = s ∧ d.denote = some (grammar R) := by
  have ha := C31_ok_only_on_ascii h
  refine ⟨ha, ?_⟩
  rw [rulesFromPeg_eq] at h
  cases hp : parse s PegRules.parsePeg with
  | ok t =>
    rw [C02_parse_ok_iff_peg_any_bounds _ _ ha, denotes_peg] at hp
    obtain ⟨d, h1, h2⟩ := doc_inv hp
    refine ⟨d, h1, h2, ?_⟩
    have h3 := rulesFromPeg_denote h1 (h2 ▸ ha)
    rw [h2] at h3
    cases hd : d.denote with
    | none =>
      obtain ⟨e, he⟩ := h3.2 hd
      rw [rulesFromPeg_eq] at he
      rw [he] at h
      cases h
    | some m =>
      obtain ⟨R', hR, rfl, _⟩ := h3.1 m hd
      rw [rulesFromPeg_eq] at hR
      rw [hR] at h
      cases h
      rfl
  | _ => rw [hp] at h; cases h

theorem accepts_iff {s : Str} (ha : Ascii s) : (∃ t, parse s PegRules.parsePeg = .ok t) ↔ ∃ d : Doc, d.OK ∧ d.str = s := by
  constructor
  · rintro ⟨t, hp⟩
    rw [C02_parse_ok_iff_peg_any_bounds _ _ ha, denotes_peg] at hp
    exact doc_inv hp
  · rintro ⟨d, h, rfl⟩
    obtain ⟨ns, h1, -⟩ := doc_reads h
    exact ⟨.rule c!"main" ns, (C02_parse_ok_iff_peg_any_bounds _ _ ha).2 (by rw [denotes_peg]; exact h1)⟩

end DP
