/-
Rules that do not end with an end of line of their own are not accepted.
-/
import Verif.Proofs.SynInv

namespace DP
open Spec PegRules Spec.Syntax Peg

theorem gaps_end {gs : Gaps} {r : Str} (h : GapsOK gs) (hne : gs = [] → r = []) (hr : DefFollow r) : AltEnd (gapsStr gs ++ r) := by
  refine ⟨⟨itemFollow_gaps _ _ fun e => ?_, gs, r, rfl, h, hr.noGap, ?_, ?_⟩, gs, r, rfl, h, hr.noGap, ?_⟩
  · rw [hne e]
    intro c hc
    cases hc
  · intro c hc
    rcases hr with hr | ⟨d, u, rfl, hd, hp, _⟩
    · rw [hr c hc]; decide
    · cases hc
      exact ⟨(start_def hd).1, (start_def hd).2.1, hp⟩
  · rcases hr with hr | ⟨d, u, rfl, hd, _, hq⟩
    · refine Or.inl fun c hc => ?_
      rw [hr c hc]
      decide
    · exact Or.inr hq
  · intro hc
    rcases hr with hr | ⟨d, u, rfl, hd, _⟩
    · exact absurd (hr _ hc) (by decide)
    · cases hc
      exact absurd hd (by decide)

/-- spaces and comments up to something that is no end of line -/
theorem noEol_fail {r : Str} (hr : NoGap r) : ∀ gs, GapsOK gs → (∀ g ∈ gs, g.isEol = false) →
    ∃ ns, Peg GP (.rep (.or [.simple (.literal c!" "), .ruleName c!"comment"]) 0 none) (gapsStr gs ++ r) (.ok r ns)
  | [], _, _ => by
    refine ⟨[], .rep_stop (by simp) (.or_next (litF ?_) (.or_next (comment_fail fun t ht => (hr _ _ ht).2.2.2 rfl) (.or_nil _)))⟩
    show r.head? ≠ _
    cases r with
    | nil => simp
    | cons c t => simpa using (hr c t rfl).1
  | g :: gs, h, hg => by
    obtain ⟨n2, h2⟩ := noEol_fail hr gs h.tail (fun x hx => hg x (List.mem_cons_of_mem _ hx))
    have hge : GapEnd g (gapsStr gs ++ r) := GapsOK.gapEnd (g := g) h hr.ne_lf
    rw [gapsStr, List.append_assoc]
    have h1 : ∃ ns, Peg GP (.or [.simple (.literal c!" "), .ruleName c!"comment"])
        (g.str ++ (gapsStr gs ++ r)) (.ok (gapsStr gs ++ r) ns) := by
      by_cases hc : g.isComment = true
      · obtain ⟨ns, h3⟩ := comment_ok hc (GapsOK.head h) hge
        have hh := comment_head hc (gapsStr gs ++ r)
        exact ⟨ns, .or_next (litF (by rw [hh]; simp)) (.or_ok h3)⟩
      · cases g with
        | sp => exact ⟨_, .or_ok litOk⟩
        | eol e =>
          have := hg (.eol e) List.mem_cons_self
          cases this
        | line b e => exact absurd rfl hc
        | multi b => exact absurd rfl hc
    obtain ⟨n1, h1⟩ := h1
    exact ⟨_, .rep_more (by simp) h1 h2⟩

/-- a rule is no module -/
theorem module_fails {n : Str} {gs g1 : Gaps} {r : Str} (hn : ValidName n) (hgs : GapsOK gs) (hg1 : GapsOK g1) :
    Peg GP (.ruleName c!"module") (gapsStr gs ++ (n ++ (gapsStr g1 ++ '=' :: r))) .fail := by
  obtain ⟨c, u, ec, hc⟩ := name_start hn
  obtain ⟨m0, p0⟩ := ws_ok (gs := gs) (r := n ++ (gapsStr g1 ++ '=' :: r)) hgs (by rw [ec]; exact (word_start hc).1.noGap)
  refine .call_fail gp_module (.and_tail_fail p0 ?_)
  obtain ⟨d, y, t, hd, hy, ht, rfl⟩ := hn
  rcases hd with rfl | rfl
  · have hne := nameEnd_gaps g1 (c := '=') (by simp) r
    cases ht with
    | nil =>
      obtain ⟨m1, p1, _⟩ := modName_reads hy hne.1
      obtain ⟨m2, p2⟩ := ws_ok (r := '=' :: r) hg1 (NoGap.of (by decide))
      simp only [List.nil_append, List.append_nil]
      exact .and_tail_fail p1 (.and_tail_fail p2 (.and_fail (litF (by simp))))
    | @cons y' t' hy' ht' =>
      obtain ⟨m1, p1, _⟩ := modName_reads (r := '.' :: (y' ++ t' ++ (gapsStr g1 ++ '=' :: r))) hy dot_sym
      obtain ⟨m2, p2⟩ := ws_ok (gs := []) (r := '.' :: (y' ++ t' ++ (gapsStr g1 ++ '=' :: r))) trivial (NoGap.of (by decide))
      have e0 : [] ++ y ++ ('.' :: y' ++ t') ++ (gapsStr g1 ++ '=' :: r) = y ++ '.' :: (y' ++ t' ++ (gapsStr g1 ++ '=' :: r)) := by simp
      rw [e0]
      exact .and_tail_fail p1 (.and_tail_fail p2 (.and_fail (litF (by simp))))
  · exact .and_fail (.call_fail gp_mod_name (symbol_fail fun c hc => by cases hc; decide))

/-- the text of a rule without its end -/
def ruleText (n : Str) (g1 g2 : Gaps) (e : Syntax.Alt) : Str := n ++ (gapsStr g1 ++ '=' :: (gapsStr g2 ++ e.str))

theorem openRule_fails {n : Str} {gs g1 g2 g3 : Gaps} {e : Syntax.Alt} {r : Str} (hgs : GapsOK gs) (hn : ValidName n) (hg1 : GapsOK g1)
    (hg2 : GapsOK g2) (he : e.OK) (hg3 : GapsOK g3) (h3 : ∀ g ∈ g3, g.isEol = false) (hne : g3 = [] → r = []) (hr : DefFollow r) :
    Peg GP eDefn (gapsStr gs ++ (ruleText n g1 g2 e ++ (gapsStr g3 ++ r))) .fail := by
  have e0 : ruleText n g1 g2 e ++ (gapsStr g3 ++ r) = n ++ (gapsStr g1 ++ '=' :: (gapsStr g2 ++ (e.str ++ (gapsStr g3 ++ r)))) := by simp [ruleText]
  rw [e0]
  refine .or_next ?_ (.or_next (module_fails hn hgs hg1) (.or_nil _))
  obtain ⟨c, u, rfl, hc⟩ := name_start hn
  obtain ⟨d, v, ed, hd⟩ := alt_start he
  obtain ⟨m0, p0⟩ := ws_ok (r := c :: u ++ (gapsStr g1 ++ '=' :: (gapsStr g2 ++ (e.str ++ (gapsStr g3 ++ r))))) hgs (word_start hc).1.noGap
  obtain ⟨m1, p1, q1⟩ := name_reads hn (nameEnd_gaps g1 (c := '=') (by simp) (gapsStr g2 ++ (e.str ++ (gapsStr g3 ++ r))))
  obtain ⟨m2, p2⟩ := ws_ok (r := '=' :: (gapsStr g2 ++ (e.str ++ (gapsStr g3 ++ r)))) hg1 (NoGap.of (by decide))
  obtain ⟨m3, p3⟩ := ws_ok (r := e.str ++ (gapsStr g3 ++ r)) hg2 (by rw [ed]; exact hd.noGap)
  obtain ⟨m4, p4, q4⟩ := expr_reads (alt_reads e he) (gaps_end hg3 hne hr)
  obtain ⟨m5, p5⟩ := noEol_fail hr.noGap g3 hg3 h3
  have p6 : Peg GP (.ruleName c!"eol") r .fail := by
    refine eol_fail hr.noGap.ne_lf ?_
    have := hr.noGap
    cases r with
    | nil => simp
    | cons c t => simpa using (this c t rfl).2.2.1
  exact .call_fail gp_rule (.and_tail_fail p0 (.and_tail_fail p1 (.and_tail_fail p2 (.and_tail_fail lit1 (.and_tail_fail p3
    (.and_tail_fail p4 (.and_fail (.call_fail gp_weol (.and_tail_fail p5 (.and_fail p6))))))))))

/-- definitions followed by something that is none -/
theorem defs_then : ∀ (ds : Defs) (gs : Gaps) (r : Str) (k : Nat), k ≤ 1 → ds.OK → GapsOK gs → DefFollow r → Peg GP eDefn r .fail →
    ∃ ns, Peg GP (.rep eDefn k none) (gapsStr gs ++ (ds.str ++ r)) (.ok r ns)
  | .one d, gs, r, k, hk, h, hgs, hr, hf => by
    rw [Defs.OK] at h
    obtain ⟨m, ns, h1, _⟩ := def_reads d h gs r hgs hr
    have e0 : k - 1 = 0 := by omega
    have h4 : Peg GP (.rep eDefn (k - 1) none) r (.ok r []) := by
      rw [e0]
      exact .rep_stop (by simp) hf
    exact ⟨_, .rep_more (by simp) h1 h4⟩
  | .cons d ds, gs, r, k, hk, h, hgs, hr, hf => by
    rw [Defs.OK] at h
    have hf' : DefFollow (ds.str ++ r) := by
      cases ds with
      | one d' => rw [Defs.str]; rw [Defs.OK] at h; exact def_follow h.2 r
      | cons d' ds' => rw [Defs.str, List.append_assoc]; rw [Defs.OK] at h; exact def_follow h.2.1 _
    obtain ⟨m, ns, h1, h2⟩ := def_reads d h.1 gs (ds.str ++ r) hgs hf'
    have e0 : k - 1 = 0 := by omega
    obtain ⟨nt, h3⟩ := defs_then ds [] r 0 (by omega) h.2 trivial hr hf
    rw [Defs.str, List.append_assoc]
    rw [← e0] at h3
    exact ⟨_, .rep_more (by simp) h1 h3⟩

theorem rejected {s : Str} (ha : Ascii s) (h : ∀ ns, ¬ Peg GP (.ruleName c!"main") s (.ok [] ns)) : ∃ e, rulesFromPeg s = .err (.parser e) := by
  cases hp : parse s PegRules.parsePeg with
  | ok t =>
    rw [C02_parse_ok_iff_peg_any_bounds _ _ ha, denotes_peg] at hp
    exact absurd hp (h _)
  | err e => exact ⟨e, (C39_syntax_errors s e).2 hp⟩
  | panic =>
    refine absurd ?_ (C31_no_panic_on_ascii ha)
    rw [rulesFromPeg_eq, hp]
  | diverge =>
    refine absurd ?_ (C30_always_returns s)
    rw [rulesFromPeg_eq, hp]

/-- what comes before the rule: blanks, or blanks and definitions -/
def PreOK (gs : Gaps) (ds : Option Defs) : Prop := GapsOK gs ∧ ∀ d ∈ ds, d.OK

def preStr (gs : Gaps) : Option Defs → Str
  | none => gapsStr gs
  | some d => gapsStr gs ++ d.str

theorem openRule_rejected {gs : Gaps} {pre : Option Defs} {n : Str} {g1 g2 g3 : Gaps} {e : Syntax.Alt} {r : Str} (hpre : PreOK gs pre)
    (hn : ValidName n) (hg1 : GapsOK g1) (hg2 : GapsOK g2) (he : e.OK) (hg3 : GapsOK g3) (h3 : ∀ g ∈ g3, g.isEol = false)
    (hne : g3 = [] → r = []) (hr : DefFollow r) (ha : Ascii (preStr gs pre ++ (ruleText n g1 g2 e ++ (gapsStr g3 ++ r)))) :
    ∃ x, rulesFromPeg (preStr gs pre ++ (ruleText n g1 g2 e ++ (gapsStr g3 ++ r))) = .err (.parser x) := by
  refine rejected ha ?_
  intro ns h
  cases pre with
  | none =>
    have hf := openRule_fails hpre.1 hn hg1 hg2 he hg3 h3 hne hr
    have : Peg GP (.ruleName c!"main") (gapsStr gs ++ (ruleText n g1 g2 e ++ (gapsStr g3 ++ r))) .fail :=
      .call_fail gp_main (.call_fail gp_grammar (.rep_few (by simp) (by omega) hf))
    cases peg_det h this
  | some ds =>
    have hf := openRule_fails (gs := []) trivial hn hg1 hg2 he hg3 h3 hne hr
    have hfo : DefFollow (ruleText n g1 g2 e ++ (gapsStr g3 ++ r)) := by
      obtain ⟨c, u, ec, hc⟩ := name_start hn
      obtain ⟨n1, h1, _⟩ := name_reads hn (nameEnd_gaps g1 (c := '=') (by simp) (gapsStr g2 ++ (e.str ++ (gapsStr g3 ++ r))))
      obtain ⟨n2, h2⟩ := ws_ok (r := '=' :: (gapsStr g2 ++ (e.str ++ (gapsStr g3 ++ r)))) hg1 (NoGap.of (by decide))
      have e0 : ruleText n g1 g2 e ++ (gapsStr g3 ++ r) = n ++ (gapsStr g1 ++ '=' :: (gapsStr g2 ++ (e.str ++ (gapsStr g3 ++ r)))) := by simp [ruleText]
      rw [e0]
      refine Or.inr ⟨c, _, by rw [ec]; rfl, (word_start hc).1, (word_start hc).2, _, _, andC h1 (andC h2 (and1 (.or_ok lit1)))⟩
    obtain ⟨ns', h1⟩ := defs_then ds gs _ 1 (by omega) (hpre.2 ds rfl) hpre.1 hfo hf
    rw [preStr, List.append_assoc] at h
    have h2 := peg_det h (.call_ok gp_main (.call_ok gp_grammar h1))
    injection h2 with h2
    obtain ⟨c, u, ec, hc⟩ := name_start hn
    rw [ruleText, ec] at h2
    cases h2

end DP
