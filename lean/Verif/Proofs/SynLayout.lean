/-
Blanks, comments and names of the concrete syntax, read by the built-in grammar.
-/
import Verif.Spec.PegSyntax
import Verif.Proofs.PegConsume

namespace DP
open Spec PegRules Spec.Syntax

section
variable {G : Str → Option Expr}

theorem litF {c : Char} {l s : Str} (h : s.head? ≠ some c) : Peg G (.simple (.literal (c :: l))) s .fail := by
  refine .lit_fail _ _ ?_
  rintro ⟨t, rfl⟩
  exact h rfl

theorem litF2 {c d : Char} {l s : Str} (h : ∀ t, s = c :: t → t.head? ≠ some d) :
    Peg G (.simple (.literal (c :: d :: l))) s .fail := by
  refine .lit_fail _ _ ?_
  rintro ⟨t, rfl⟩
  exact h _ rfl rfl

theorem litOk {l r : Str} : Peg G (.simple (.literal l)) (l ++ r) (.ok r [.val l]) := .lit_ok l r

theorem lit1 {c : Char} {r : Str} : Peg G (.simple (.literal [c])) (c :: r) (.ok r [.val [c]]) := .lit_ok [c] r

theorem classF {cs rs s} (h : ∀ c, s.head? = some c → ¬ InClass cs rs c) : Peg G (.simple (.mtch cs rs)) s .fail := by
  cases s with
  | nil => exact .class_end _ _
  | cons c s => exact .class_fail _ _ _ _ (h c rfl)

theorem and1 {e s r ns} (h : Peg G e s (.ok r ns)) : Peg G (.and [e]) s (.ok r ns) := by
  have := Peg.and_ok h (.and_nil r)
  simpa using this

theorem andC {e es s q r n1 n2} (h1 : Peg G e s (.ok q n1)) (h2 : Peg G (.and es) q (.ok r n2)) :
    Peg G (.and (e :: es)) s (.ok r (n1 ++ n2)) := .and_ok h1 h2

end

/-- no gap starts here -/
def NoGap (r : Str) : Prop := ∀ c t, r = c :: t → c ≠ ' ' ∧ c ≠ '\n' ∧ c ≠ '\r' ∧
  (c = '/' → t.head? ≠ some '/' ∧ t.head? ≠ some '*')

theorem NoGap.nil : NoGap [] := by intro c t h; cases h

theorem NoGap.of {c : Char} {t : Str} (h : c ≠ ' ' ∧ c ≠ '\n' ∧ c ≠ '\r' ∧ c ≠ '/') : NoGap (c :: t) := by
  intro c' t' e
  cases e
  exact ⟨h.1, h.2.1, h.2.2.1, fun e => absurd e h.2.2.2⟩

theorem NoGap.ne_lf {r : Str} (h : NoGap r) : r.head? ≠ some '\n' := by
  cases r with
  | nil => simp
  | cons c r => simpa using (h c r rfl).2.1

/-! ### Ends of line -/

theorem eol_ok {e : Eol} {r : Str} (h : e = .cr → r.head? ≠ some '\n') :
    Peg GP (.ruleName c!"eol") (e.str ++ r) (.ok r [.rule c!"eol" [.val e.str]]) := by
  refine .call_ok gp_eol ?_
  cases e with
  | crlf => exact .or_ok (litOk (l := c!"\r\n"))
  | lf => exact .or_next (litF (by simp [Eol.str])) (.or_ok (litOk (l := c!"\n")))
  | cr =>
    refine .or_next (litF2 ?_) (.or_next (litF (by simp [Eol.str])) (.or_ok (litOk (l := c!"\r"))))
    intro t ht
    simp only [Eol.str, List.cons_append, List.nil_append, List.cons.injEq, true_and] at ht
    rw [← ht]
    exact h rfl

theorem eol_fail {r : Str} (h1 : r.head? ≠ some '\n') (h2 : r.head? ≠ some '\r') : Peg GP (.ruleName c!"eol") r .fail :=
  .call_fail gp_eol (.or_next (litF h2) (.or_next (litF h1) (.or_next (litF h2) (.or_nil _))))

/-! ### Comments -/

/-- the characters of a comment, up to where it stops -/
theorem chars_ok {stop : Expr} {r r' : Str} {ns : List Node} (hstop : Peg GP stop r (.ok r' ns)) :
    ∀ b : Str, (∀ x y, b = x ++ y → y ≠ [] → Peg GP stop (y ++ r) .fail) →
    Peg GP (.rep (.and [.not stop, .simple .dot]) 0 none) (b ++ r) (.ok r (b.map fun c => .val [c]))
  | [], _ => .rep_stop (by simp) (.and_fail (.not_ok hstop))
  | c :: b, h => by
    have h1 : Peg GP (.and [.not stop, .simple .dot]) (c :: b ++ r) (.ok (b ++ r) [.val [c]]) :=
      andC (.not_fail (h [] _ rfl (by simp))) (and1 (.dot_ok c _))
    refine .rep_more (by simp) h1 (chars_ok hstop b ?_)
    intro x y e hy
    exact h (c :: x) y (by rw [e]; rfl) hy

theorem line_ok {b : Str} {e : Eol} {r : Str} (hb : ∀ c ∈ b, c ≠ '\n' ∧ c ≠ '\r') (h : e = .cr → r.head? ≠ some '\n') :
    ∃ ns, Peg GP (.ruleName c!"line_comment") (c!"//" ++ b ++ e.str ++ r) (.ok r ns) := by
  have h1 := chars_ok (stop := .ruleName c!"eol") (eol_ok h) b ?_
  · rw [List.append_assoc, List.append_assoc]
    exact ⟨_, .call_ok gp_line_comment (andC litOk (andC h1 (and1 (eol_ok h))))⟩
  · intro x y hxy hy
    cases y with
    | nil => exact absurd rfl hy
    | cons c y =>
      have := hb c (by rw [hxy]; simp)
      exact eol_fail (by simpa using this.1) (by simpa using this.2)

theorem multi_ok {b : Str} {r : Str} (hb : ¬ c!"*/" <:+: b) :
    ∃ ns, Peg GP (.ruleName c!"mline_comment") (c!"/*" ++ b ++ c!"*/" ++ r) (.ok r ns) := by
  have h1 := chars_ok (stop := .simple (.literal c!"*/")) (litOk (r := r)) b ?_
  · rw [List.append_assoc, List.append_assoc]
    exact ⟨_, .call_ok gp_mline_comment (andC litOk (andC h1 (and1 litOk)))⟩
  · intro x y hxy hy
    refine litF2 ?_
    intro t ht
    cases y with
    | nil => exact absurd rfl hy
    | cons c y =>
      simp only [List.cons_append, List.cons.injEq] at ht
      obtain ⟨rfl, rfl⟩ := ht
      cases y with
      | nil => simp
      | cons d y =>
        simp only [List.cons_append, List.head?_cons, ne_eq, Option.some.injEq]
        rintro rfl
        exact hb ⟨x, y, by rw [hxy]; simp⟩

/-- the end of a gap may need care -/
def GapEnd (g : Gap) (r : Str) : Prop := g.endsCR = true → r.head? ≠ some '\n'

theorem comment_ok {g : Gap} {r : Str} (hc : g.isComment = true) (hg : g.OK) (he : GapEnd g r) :
    ∃ ns, Peg GP (.ruleName c!"comment") (g.str ++ r) (.ok r ns) := by
  cases g with
  | line b e =>
    obtain ⟨ns, h⟩ := line_ok (b := b) (e := e) (r := r) hg (fun h => he (by rw [h]; rfl))
    exact ⟨_, .call_ok gp_comment (.or_ok h)⟩
  | multi b =>
    obtain ⟨ns, h⟩ := multi_ok (b := b) (r := r) hg
    refine ⟨_, .call_ok gp_comment (.or_next (.call_fail gp_line_comment (.and_fail (litF2 ?_))) (.or_ok h))⟩
    intro t ht
    simp only [Gap.str, List.cons_append, List.cons.injEq, true_and] at ht
    subst ht
    simp
  | _ => cases hc

theorem comment_fail {r : Str} (h : ∀ t, r = '/' :: t → t.head? ≠ some '/' ∧ t.head? ≠ some '*') :
    Peg GP (.ruleName c!"comment") r .fail :=
  .call_fail gp_comment (.or_next (.call_fail gp_line_comment (.and_fail (litF2 fun t ht => (h t ht).1)))
    (.or_next (.call_fail gp_mline_comment (.and_fail (litF2 fun t ht => (h t ht).2))) (.or_nil _)))

/-! ### Gaps -/

/-- one gap, as the grammar has it -/
abbrev eGap : Expr := .or [.simple (.literal c!" "), .ruleName c!"eol", .ruleName c!"comment"]

theorem eol_head (e : Eol) (r : Str) : (e.str ++ r).head? ≠ some ' ' ∧ (e.str ++ r).head? ≠ some '/' := by
  cases e <;> simp [Eol.str]

theorem comment_head {g : Gap} (hc : g.isComment = true) (r : Str) : (g.str ++ r).head? = some '/' := by
  cases g <;> first | (cases hc; done) | simp [Gap.str]

theorem gap_ok {g : Gap} {r : Str} (hg : g.OK) (he : GapEnd g r) : ∃ ns, Peg GP eGap (g.str ++ r) (.ok r ns) := by
  by_cases hc : g.isComment = true
  · obtain ⟨ns, h⟩ := comment_ok hc hg he
    have hh := comment_head hc r
    exact ⟨ns, .or_next (litF (by rw [hh]; simp)) (.or_next (eol_fail (by rw [hh]; simp) (by rw [hh]; simp)) (.or_ok h))⟩
  · cases g with
    | sp => exact ⟨_, .or_ok litOk⟩
    | eol e =>
      refine ⟨_, .or_next (litF (eol_head e r).1) (.or_ok (eol_ok fun h => he (by rw [h]; rfl)))⟩
    | line b e => exact absurd rfl hc
    | multi b => exact absurd rfl hc

theorem gap_fail {r : Str} (h : NoGap r) : Peg GP eGap r .fail := by
  refine .or_next (litF ?_) (.or_next (eol_fail ?_ ?_) (.or_next (comment_fail ?_) (.or_nil _)))
  · cases r with
    | nil => simp
    | cons c t => simpa using (h c t rfl).1
  · exact h.ne_lf
  · cases r with
    | nil => simp
    | cons c t => simpa using (h c t rfl).2.2.1
  · intro t ht
    exact (h _ t ht).2.2.2 rfl

theorem Spec.Syntax.GapsOK.head {g gs} (h : GapsOK (g :: gs)) : g.OK := by
  cases gs with
  | nil => exact h
  | cons _ _ => exact h.1

theorem Spec.Syntax.GapsOK.tail {g gs} (h : GapsOK (g :: gs)) : GapsOK gs := by
  cases gs with
  | nil => trivial
  | cons _ _ => exact h.2.2

theorem gap_head_lf {g : Gap} {r : Str} (h : (g.str ++ r).head? = some '\n') : g = .eol .lf := by
  cases g with
  | eol e => cases e <;> simp [Gap.str, Eol.str] at h ⊢
  | _ => simp [Gap.str] at h

theorem Spec.Syntax.GapsOK.gapEnd {g gs r} (h : GapsOK (g :: gs)) (hr : r.head? ≠ some '\n') : GapEnd g (gapsStr gs ++ r) := by
  intro he
  cases gs with
  | nil => exact hr
  | cons g2 gs =>
    intro hh
    rw [gapsStr, List.append_assoc] at hh
    exact h.2.1 ⟨he, gap_head_lf hh⟩

theorem gapsRep_ok {r : Str} (hr : NoGap r) : ∀ gs, GapsOK gs → ∃ ns,
    Peg GP (.rep eGap 0 none) (gapsStr gs ++ r) (.ok r ns)
  | [], _ => ⟨_, .rep_stop (by simp) (gap_fail hr)⟩
  | g :: gs, h => by
    obtain ⟨n1, h1⟩ := gap_ok h.head (h.gapEnd hr.ne_lf)
    obtain ⟨n2, h2⟩ := gapsRep_ok hr gs h.tail
    rw [gapsStr, List.append_assoc]
    exact ⟨_, .rep_more (by simp) h1 h2⟩

/-- `_` reads the gaps and nothing else -/
theorem ws_ok {gs r} (h : GapsOK gs) (hr : NoGap r) : ∃ ns,
    Peg GP (.ruleName c!"_") (gapsStr gs ++ r) (.ok r [.rule c!"_" ns]) := by
  obtain ⟨ns, h1⟩ := gapsRep_ok hr gs h
  exact ⟨_, .call_ok gp_ws h1⟩

theorem ws_none {r} (hr : NoGap r) : ∃ ns, Peg GP (.ruleName c!"_") r (.ok r [.rule c!"_" ns]) :=
  ws_ok (gs := []) trivial hr

/-- `_1` reads one blank -/
theorem one_ok {g : Gap} {r : Str} (hc : g.isComment = false) (he : GapEnd g r) : ∃ ns,
    Peg GP (.ruleName c!"_1") (g.str ++ r) (.ok r [.rule c!"_1" ns]) := by
  cases g with
  | sp => exact ⟨_, .call_ok gp_one (.or_ok litOk)⟩
  | eol e =>
    exact ⟨_, .call_ok gp_one (.or_next (litF (eol_head e r).1) (.or_ok (eol_ok fun h => he (by rw [h]; rfl))))⟩
  | _ => cases hc

theorem one_fail {r : Str} (h : ∀ c t, r = c :: t → c ≠ ' ' ∧ c ≠ '\n' ∧ c ≠ '\r') : Peg GP (.ruleName c!"_1") r .fail := by
  refine .call_fail gp_one (.or_next (litF ?_) (.or_next (eol_fail ?_ ?_) (.or_nil _))) <;>
  · cases r with
    | nil => simp
    | cons c t =>
      have := h c t rfl
      simp [this.1, this.2.1, this.2.2]

/-- separators in sequences -/
theorem sep_ok {g : Gaps} {r : Str} (h : SepOK g) (hr : NoGap r) : ∃ q n1 n2,
    Peg GP (.ruleName c!"_1") (gapsStr g ++ r) (.ok q [.rule c!"_1" n1]) ∧
    Peg GP (.ruleName c!"_") q (.ok r [.rule c!"_" n2]) := by
  obtain ⟨h1, x, gs, rfl, hx⟩ := h
  obtain ⟨n1, h2⟩ := one_ok hx (h1.gapEnd hr.ne_lf)
  obtain ⟨n2, h3⟩ := ws_ok h1.tail hr
  rw [gapsStr, List.append_assoc]
  exact ⟨_, _, _, h2, h3⟩

/-- spaces and comments before the end of a rule -/
theorem beforeEol_ok {e : Eol} {r : Str} : ∀ gs after, GapsOK (gs ++ .eol e :: after) → (∀ g ∈ gs, g.isEol = false) → NoGap r →
    ∃ ns, Peg GP (.rep (.or [.simple (.literal c!" "), .ruleName c!"comment"]) 0 none)
      (gapsStr (gs ++ .eol e :: after) ++ r) (.ok (e.str ++ (gapsStr after ++ r)) ns)
  | [], after, h, _, hr => by
    refine ⟨[], ?_⟩
    rw [List.nil_append, gapsStr, List.append_assoc]
    refine .rep_stop (by simp) (.or_next (litF (eol_head e _).1) (.or_next (comment_fail ?_) (.or_nil _)))
    intro t ht
    have := (eol_head e (gapsStr after ++ r)).2
    rw [show e.str ++ (gapsStr after ++ r) = '/' :: t from ht] at this
    exact absurd rfl this
  | g :: gs, after, h, hg, hr => by
    obtain ⟨n2, h2⟩ := beforeEol_ok gs after h.tail (fun x hx => hg x (List.mem_cons_of_mem _ hx)) hr
    have hge : GapEnd g (gapsStr (gs ++ .eol e :: after) ++ r) := GapsOK.gapEnd (g := g) h hr.ne_lf
    rw [List.cons_append, gapsStr, List.append_assoc]
    have h1 : ∃ ns, Peg GP (.or [.simple (.literal c!" "), .ruleName c!"comment"])
        (g.str ++ (gapsStr (gs ++ .eol e :: after) ++ r)) (.ok (gapsStr (gs ++ .eol e :: after) ++ r) ns) := by
      by_cases hc : g.isComment = true
      · obtain ⟨ns, h3⟩ := comment_ok hc (GapsOK.head (gs := gs ++ .eol e :: after) h) hge
        have hh := comment_head hc (gapsStr (gs ++ .eol e :: after) ++ r)
        exact ⟨ns, .or_next (litF (by rw [hh]; simp)) (.or_ok h3)⟩
      · cases g with
        | sp => exact ⟨_, .or_ok litOk⟩
        | eol e =>
          have := hg (.eol e) List.mem_cons_self
          cases this
        | line b e => exact absurd rfl hc
        | multi b => exact absurd rfl hc
    obtain ⟨n1, h1⟩ := h1
    exact ⟨_, .rep_more (by simp) h1 h2⟩

theorem Spec.Syntax.GapsOK.drop : ∀ {gs hs : Gaps}, GapsOK (gs ++ hs) → GapsOK hs
  | [], _, h => h
  | _ :: gs, _, h => GapsOK.drop (gs := gs) h.tail

/-- the end of a rule -/
theorem term_ok {t : Term} {r : Str} (h : t.OK) (hr : NoGap r) : ∃ q n1 n2,
    Peg GP (.ruleName c!"_eol") (gapsStr t.gaps ++ r) (.ok q [.rule c!"_eol" n1]) ∧
    Peg GP (.ruleName c!"_") q (.ok r [.rule c!"_" n2]) := by
  obtain ⟨n1, h1⟩ := beforeEol_ok t.before t.after h.1 h.2 hr
  have h2 : GapsOK (.eol t.eol :: t.after) := GapsOK.drop (gs := t.before) h.1
  obtain ⟨n2, h3⟩ := ws_ok h2.tail hr
  refine ⟨_, _, _, .call_ok gp_weol (andC h1 (and1 (eol_ok ?_))), h3⟩
  intro he
  exact h2.gapEnd hr.ne_lf (by rw [he]; rfl)

end DP
