/-
C57, C58: the layout of PEG texts, and one text after another.
-/
import Verif.Proofs.Join
import Verif.Proofs.SynCheck
import Verif.Props.Syntax
import Verif.Props.Complaint

namespace DP
open Spec Spec.Syntax

/-! ### C57: blanks and comments -/

/-- **C57**: two texts with the same tokens, in whatever way blanks and comments are spread between them, get
the same answer: the same rules, or the same error. -/
theorem C57_same_tokens {d d' : Doc} (h : d.OK) (h' : d'.OK) (ha : Ascii d.str) (ha' : Ascii d'.str)
    (ht : d.tokens = d'.tokens) : rulesFromPeg d.str = rulesFromPeg d'.str := by
  rw [rulesFromPeg_lines h ha, rulesFromPeg_lines h' ha', ht]

/-- **C57**: in particular the text can be written with one token per line. -/
theorem C57_one_per_line {d : Doc} (h : d.OK) (ha : Ascii d.str) :
    rulesFromPeg (onePerLine d.tokens) = rulesFromPeg d.str ∧ ∃ t, parse (onePerLine d.tokens) PegRules.parsePeg = .ok t :=
  ⟨(rulesFromPeg_lines h ha).symm,
    (C45_accepted_texts (doc_lines_ascii ha)).2 ⟨d.spread, doc_spread_ok h, doc_lines h⟩⟩

theorem ascii_split {a b : Str} (h : Ascii (a ++ b)) : Ascii a ∧ Ascii b :=
  ⟨fun c hc => h c (List.mem_append_left _ hc), fun c hc => h c (List.mem_append_right _ hc)⟩

/-- **C57**: blanks and comments before and after a text that is accepted change nothing. -/
theorem C57_around {s t : Str} {gs gs' : Gaps} {n : Node} (hp : parse s PegRules.parsePeg = .ok n) (ha : Ascii s) (hg : GapsOK gs) (hg' : GapsOK gs')
    (hga : Ascii (gapsStr gs)) (hga' : Ascii (gapsStr gs')) (ht : t = gapsStr gs ++ s ++ gapsStr gs') :
    rulesFromPeg t = rulesFromPeg s := by
  obtain ⟨d, h, rfl⟩ := (C45_accepted_texts ha).1 ⟨_, hp⟩
  obtain ⟨c, h1, h2, h3⟩ := defs_more h.2 hg'
  have he : (⟨joinGaps gs d.before, c⟩ : Doc).str = t := by
    rw [ht, Doc.str, joinGaps_str, h2, Doc.str]
    simp
  rw [← he]
  refine C57_same_tokens ⟨joinGaps_ok _ _ hg h.1, h1⟩ h ?_ ha h3
  rw [he, ht]
  exact ascii_append (ascii_append hga ha) hga'

/-- a comment line before, blanks and a comment after -/
example (s : Str) (R : SetOfRules) (h : rulesFromPeg s = .ok R) :
    rulesFromPeg (c!"// rules\n" ++ s ++ c!" /* end */\n") = .ok R := by
  have ha := C31_ok_only_on_ascii h
  obtain ⟨_, d, hd, hs, _⟩ := rulesFromPeg_inv h
  obtain ⟨t, ht⟩ := (C45_accepted_texts ha).2 ⟨d, hd, hs⟩
  exact (C57_around (gs := [.line c!" rules" .lf]) (gs' := [.sp, .multi c!" end ", .eol .lf]) ht ha (by decide) (by decide) (by decide)
    (by decide) rfl).trans h

/-- `main = 'a' b* / !c` and the same spread over lines -/
def exLayout : Doc := ⟨[], .one (.rule c!"main" [.sp] [.sp]
  (.cons (.item (.plain (.lit (.single c!"a"))) (.item [.sp] (.star (.ref c!"b")) .nil)) [.sp] [.sp]
    (.one (.item (.not (.ref c!"c")) .nil))) ⟨[], .lf, []⟩)⟩

example : exLayout.str = c!"main = 'a' b* / !c\n" ∧ onePerLine exLayout.tokens = c!"main\n=\n'a'\nb*\n/\n!c\n" := by decide +kernel

example : rulesFromPeg c!"main\n=\n'a'\nb*\n/\n!c\n" =
    .ok ⟨[(c!"main", .or [.and [.simple (.literal c!"a"), .rep (.ruleName c!"b") 0 none], .not (.ruleName c!"c")])]⟩ := by
  have ok : exLayout.OK := docOK_sound (by decide +kernel)
  have h := (C57_one_per_line ok (by decide)).1
  rw [show onePerLine exLayout.tokens = c!"main\n=\n'a'\nb*\n/\n!c\n" from by decide +kernel] at h
  rw [h]
  exact (rulesFromPeg_doc ok (by decide)).1 _ rfl

/-- is it a syntax error? -/
def isSyntaxError : Out PegError SetOfRules → Bool
  | .err (.parser _) => true
  | _ => false

theorem rulesFromPeg_syntaxError {s : Str} (f : Nat) (h : isSyntaxError (rulesFromPegF f s) = true) :
    ∃ e, rulesFromPeg s = .err (.parser e) := by
  cases hx : rulesFromPegF f s with
  | err e =>
    cases e with
    | parser e => exact ⟨e, limit_of (rulesFromPegF_step s) (n := f) hx (by simp)⟩
    | _ => rw [hx] at h; cases h
  | _ => rw [hx] at h; cases h

/-- **C57** needs the blanks between the elements of a sequence: `'a''b'` is not accepted. -/
theorem C57_blank_needed : rulesFromPeg c!"main='a' 'b'\n" = .ok ⟨[(c!"main", .and [.simple (.literal c!"a"), .simple (.literal c!"b")])]⟩ ∧
    ∃ e, rulesFromPeg c!"main='a''b'\n" = .err (.parser e) := by
  exact ⟨rulesFromPeg_of 200 (by decide +kernel), rulesFromPeg_syntaxError 200 (by decide +kernel)⟩

/-! ### C58: one text after another -/

/-- **C58**: a text made of two texts. A name means what the last rule of the second text for it outside
modules says; otherwise what it means in the first text; otherwise what it means in the second. -/
theorem C58_concatenation {s₁ : Str} {d₂ : Doc} {R₁ R₂ : SetOfRules} (h₁ : rulesFromPeg s₁ = .ok R₁) (hd : d₂.OK)
    (h₂ : rulesFromPeg d₂.str = .ok R₂) : ∃ R, rulesFromPeg (s₁ ++ d₂.str) = .ok R ∧
      ∀ x, grammar R x = (d₂.defs.lastRule x).or ((grammar R₁ x).or (grammar R₂ x)) := by
  have ha := C31_ok_only_on_ascii h₁
  have hb := C31_ok_only_on_ascii h₂
  obtain ⟨_, d, h, rfl, hm⟩ := rulesFromPeg_inv h₁
  obtain ⟨c, hc, hs, hj⟩ := doc_join h hd
  have hac : Ascii c.str := by rw [hs]; exact ascii_append ha hb
  have e0 : grammar SetOfRules.empty = fun _ => none := by funext x; rfl
  rcases rulesFromPeg_doc' h ha with ⟨S, a1, _, a3⟩ | ⟨p, _, _, a3⟩
  · rw [a3] at h₁; cases h₁
    have hu := (defs_denote d.defs SetOfRules.empty C22_keys_unique.1).2 _ a1
    have h3 := defs_denote d₂.defs R₁ hu
    rcases rulesFromPeg_doc' hd hb with ⟨S, b1, _, b3⟩ | ⟨p, _, _, b3⟩
    · rw [b3] at h₂; cases h₂
      have h4 := defs_denote d₂.defs SetOfRules.empty C22_keys_unique.1
      rw [b1, e0] at h4
      have h5 := rulesFromPeg_doc hc hac
      have hr := hj.rules SetOfRules.empty
      rw [a1] at hr
      have hr' : defsRules SetOfRules.empty c.defs = defsRules R₁ d₂.defs := hr
      cases hx : defsRules R₁ d₂.defs with
      | none =>
        exfalso
        rcases rulesFromPeg_doc' hc hac with ⟨S, c1, _, _⟩ | ⟨p, _, c2, _⟩
        · rw [hr', hx] at c1; cases c1
        · rcases rulesFromPeg_doc' h ha with ⟨_, _, a2, _⟩ | ⟨_, a1', _, _⟩
          · rcases rulesFromPeg_doc' hd hb with ⟨_, _, b2, _⟩ | ⟨_, b1', _, _⟩
            · have f1 : d.defs.fault = none := by simpa [Doc.fault, within] using a2
              have f2 : d₂.defs.fault = none := by simpa [Doc.fault, within] using b2
              rw [Doc.fault, hj.fault, f1, f2] at c2
              cases c2
            · rw [b1] at b1'; cases b1'
          · rw [a1] at a1'; cases a1'
      | some R =>
        refine ⟨R, by rw [← hs]; exact h5.1 R (by rw [hr', hx]), fun x => ?_⟩
        rw [hx] at h3
        have h6 := defs_closed x d₂.defs _ _ h3.1
        have h7 := defs_closed x d₂.defs _ _ h4.1
        rw [h6, h7]
        cases d₂.defs.lastRule x <;> cases grammar R₁ x <;> simp
    · rw [b3] at h₂; cases h₂
  · rw [a3] at h₁; cases h₁

theorem no_module_lastRule : ∀ {ds : Defs}, '{' ∉ ds.str → ∀ x, ds.firstModule x = none
  | .one (.rule n g1 g2 e t), _, x => rfl
  | .one (.module n g1 g2 ds t), h, x => absurd (by simp [Defs.str, Def.str]) h
  | .cons (.rule n g1 g2 e t) ds, h, x => by
    rw [Defs.firstModule, Def.inModule]
    exact no_module_lastRule (fun hm => h (by rw [Defs.str]; exact List.mem_append_right _ hm)) x
  | .cons (.module n g1 g2 ds' t) ds, h, x => absurd (by simp [Defs.str, Def.str]) h

/-- **C58**, if the second text has no module (no `{` at all): the second text wins, name by name; the result
is the second set of rules merged with the first. -/
theorem C58_second_wins {s₁ s₂ : Str} {R₁ R₂ : SetOfRules} (h₁ : rulesFromPeg s₁ = .ok R₁) (h₂ : rulesFromPeg s₂ = .ok R₂)
    (hm : '{' ∉ s₂) : ∃ R, rulesFromPeg (s₁ ++ s₂) = .ok R ∧ ∀ x, grammar R x = grammar (R₂.merge R₁) x := by
  obtain ⟨_, d, hd, rfl, _⟩ := rulesFromPeg_inv h₂
  obtain ⟨R, h3, h4⟩ := C58_concatenation h₁ hd h₂
  refine ⟨R, h3, fun x => ?_⟩
  have h5 := C37_resolution hd h₂ x
  rw [no_module_lastRule (ds := d.defs) (fun hx => hm (List.mem_append_right _ hx)) x, Option.or_none] at h5
  rw [h4, C22_merge (C32_rules_in_normal_form h₂).2 (C32_rules_in_normal_form h₁).2, ← h5]
  cases grammar R₂ x <;> simp

/-- **C58**: texts that define no common name can be put in any order. -/
theorem C58_any_order {s₁ s₂ : Str} {R₁ R₂ : SetOfRules} (h₁ : rulesFromPeg s₁ = .ok R₁) (h₂ : rulesFromPeg s₂ = .ok R₂)
    (hd : ∀ x, grammar R₁ x = none ∨ grammar R₂ x = none) : ∃ R R', rulesFromPeg (s₁ ++ s₂) = .ok R ∧ rulesFromPeg (s₂ ++ s₁) = .ok R' ∧
      ∀ x, grammar R x = (grammar R₁ x).or (grammar R₂ x) ∧ grammar R' x = grammar R x := by
  obtain ⟨_, d₁, hd₁, rfl, _⟩ := rulesFromPeg_inv h₁
  obtain ⟨_, d₂, hd₂, rfl, _⟩ := rulesFromPeg_inv h₂
  obtain ⟨R, h3, h4⟩ := C58_concatenation h₁ hd₂ h₂
  obtain ⟨R', h5, h6⟩ := C58_concatenation h₂ hd₁ h₁
  have key : ∀ x, grammar R x = (grammar R₁ x).or (grammar R₂ x) ∧ grammar R' x = grammar R x := by
    intro x
    have r1 := C37_resolution hd₁ h₁ x
    have r2 := C37_resolution hd₂ h₂ x
    rw [h4, h6]
    rcases hd x with hx | hx
    · rw [hx] at r1 ⊢
      have hl : d₁.defs.lastRule x = none := by
        cases hl : d₁.defs.lastRule x with
        | none => rfl
        | some e => rw [hl] at r1; cases r1
      rw [hl, r2]
      cases d₂.defs.lastRule x <;> simp
    · rw [hx] at r2 ⊢
      have hl : d₂.defs.lastRule x = none := by
        cases hl : d₂.defs.lastRule x with
        | none => rfl
        | some e => rw [hl] at r2; cases r2
      rw [hl, r1]
      cases d₁.defs.lastRule x <;> simp
  exact ⟨R, R', h3, h5, key⟩

/-- **C58**, complaints: if the first text is accepted by the grammar but complained about, the complaint stays
the same whatever accepted text follows; a complaint about the second text is not hidden by the first. -/
theorem C58_complaints {s₁ s₂ : Str} {t₁ t₂ : Node} (ha₁ : Ascii s₁) (ha₂ : Ascii s₂)
    (h₁ : parse s₁ PegRules.parsePeg = .ok t₁) (h₂ : parse s₂ PegRules.parsePeg = .ok t₂) :
    (∃ t, parse (s₁ ++ s₂) PegRules.parsePeg = .ok t) ∧
    (∀ e, rulesFromPeg s₁ = .err e → rulesFromPeg (s₁ ++ s₂) = .err e) ∧
    (∀ R e, rulesFromPeg s₁ = .ok R → rulesFromPeg s₂ = .err e → rulesFromPeg (s₁ ++ s₂) = .err e) := by
  obtain ⟨d₁, hd₁, rfl⟩ := (C45_accepted_texts ha₁).1 ⟨_, h₁⟩
  obtain ⟨d₂, hd₂, rfl⟩ := (C45_accepted_texts ha₂).1 ⟨_, h₂⟩
  obtain ⟨c, hc, hs, hj⟩ := doc_join hd₁ hd₂
  have ha := ascii_append ha₁ ha₂
  rw [← hs] at ha ⊢
  have hf : c.fault = first d₁.fault d₂.fault := by
    rw [Doc.fault, hj.fault, Doc.fault, Doc.fault]
    cases d₁.defs.fault <;> rfl
  refine ⟨(C45_accepted_texts ha).2 ⟨c, hc, rfl⟩, ?_, ?_⟩
  · intro e he
    rcases rulesFromPeg_doc' hd₁ ha₁ with ⟨_, _, _, a3⟩ | ⟨p, _, a2, a3⟩
    · rw [a3] at he; cases he
    · rw [a3] at he; cases he
      exact C48_complaint hc ha (by rw [hf, a2]; rfl)
  · intro R e hR he
    rcases rulesFromPeg_doc' hd₁ ha₁ with ⟨_, _, a2, _⟩ | ⟨p, _, _, a3⟩
    · rcases rulesFromPeg_doc' hd₂ ha₂ with ⟨_, _, _, b3⟩ | ⟨p, _, b2, b3⟩
      · rw [b3] at he; cases he
      · rw [b3] at he; cases he
        exact C48_complaint hc ha (by rw [hf, a2, b2]; rfl)
    · rw [a3] at hR; cases hR

/-- **C58**: a text put into a module means the same. -/
theorem C58_module {s n : Str} {R : SetOfRules} (h : rulesFromPeg s = .ok R) (hn : ValidSymbol n) (hna : Ascii n) :
    ∃ R', rulesFromPeg (n ++ c!" {" ++ s ++ c!"}\n") = .ok R' ∧ ∀ x, grammar R' x = grammar R x := by
  have ha := C31_ok_only_on_ascii h
  obtain ⟨_, d, hd, rfl, hm⟩ := rulesFromPeg_inv h
  have hs : (⟨[], .one (.module n [.sp] d.before d.defs ⟨[], .lf, []⟩)⟩ : Doc).str = n ++ c!" {" ++ d.str ++ c!"}\n" := by
    simp [Doc.str, Defs.str, Def.str, gapsStr, Gap.str, Eol.str, Term.gaps]
  have hok : (⟨[], .one (.module n [.sp] d.before d.defs ⟨[], .lf, []⟩)⟩ : Doc).OK := by
    refine ⟨trivial, ?_⟩
    rw [Defs.OK, Def.OK]
    exact ⟨hn, trivial, hd.1, hd.2, by decide, by decide⟩
  have h1 := (rulesFromPeg_denote hok (by rw [hs]; exact ascii_append (ascii_append (ascii_append hna (by decide)) ha) (by decide))).1
    (grammar R) (by
      rw [Doc.denote, Defs.denote, Def.denote]
      rw [Doc.denote] at hm
      rw [hm]
      rfl)
  obtain ⟨R', h2, h3, _⟩ := h1
  rw [hs] at h2
  exact ⟨R', h2, fun x => by rw [h3]⟩

/-- the second text redefines `a`: its rule counts -/
example : ∃ R, rulesFromPeg c!"main=a\na=.\na='x'\n" = .ok R ∧ grammar R c!"a" = some (.simple (.literal c!"x")) ∧
    grammar R c!"main" = some (.ruleName c!"a") := by
  have h1 : rulesFromPeg c!"main=a\na=.\n" = .ok ⟨_⟩ := rulesFromPeg_of 200 (l := [(c!"a", .simple .dot), (c!"main", .ruleName c!"a")]) (by decide +kernel)
  have h2 : rulesFromPeg c!"a='x'\n" = .ok ⟨_⟩ := rulesFromPeg_of 200 (l := [(c!"a", .simple (.literal c!"x"))]) (by decide +kernel)
  obtain ⟨R, h3, h4⟩ := C58_second_wins h1 h2 (by decide)
  exact ⟨R, h3, by rw [h4]; decide, by rw [h4]; decide⟩

/-- the second text is not accepted by itself, yet it can continue the last rule of the first one -/
theorem C58_continued : rulesFromPeg c!"main = 'a'\n" = .ok ⟨[(c!"main", .simple (.literal c!"a"))]⟩ ∧
    (∃ e, rulesFromPeg c!"/ 'b'\n" = .err e) ∧
    rulesFromPeg (c!"main = 'a'\n" ++ c!"/ 'b'\n") =
      .ok ⟨[(c!"main", .or [.simple (.literal c!"a"), .simple (.literal c!"b")])]⟩ := by
  refine ⟨rulesFromPeg_of 200 (by decide +kernel), ?_, rulesFromPeg_of 200 (by decide +kernel)⟩
  have hk : (match parseWithDebugF 100 c!"/ 'b'\n" PegRules.parsePeg false with
      | .err _ => true | _ => false) = true := by decide +kernel
  cases hr : parseWithDebugF 100 c!"/ 'b'\n" PegRules.parsePeg false with
  | err e => exact ⟨_, (C39_syntax_errors _ _).2 (parse_of_fuel hr (by simp))⟩
  | ok _ => rw [hr] at hk; cases hk
  | panic => rw [hr] at hk; cases hk
  | diverge => rw [hr] at hk; cases hk

/-- a module in the second text only fills in -/
theorem C58_module_fills_in : ∃ R, rulesFromPeg c!"a=.\nm{a='x'\n}\n" = .ok R ∧ grammar R c!"a" = some (.simple .dot) :=
  ⟨_, rulesFromPeg_of 200 (l := [(c!"a", .simple .dot)]) (by decide +kernel), by decide⟩

end DP
