/-
C01-C04, C09-C11, C14-C17: what `parse` returns.
-/
import Verif.Proofs.Api
import Verif.Proofs.Decide
import Verif.Spec.Tree
import Verif.Spec.Critical

namespace DP
open Spec

/-- Grammar used to show that hypotheses can be met: `main = word+ !.`, `word = 'ab' / [xA-Z] / sp`,
`sp = ' '`. -/
def exRules : SetOfRules := ⟨[
  (c!"main", .and [.rep (.ruleName c!"word") 1 none, .not (.simple .dot)]),
  (c!"word", .or [.simple (.literal c!"ab"), .simple (.mtch c!"x" [('A', 'Z')]), .ruleName c!"sp"]),
  (c!"sp", .simple (.literal c!" "))]⟩

/-- its tree for "ab Q" -/
def exTree : Node := .rule c!"main" [.rule c!"word" [.val c!"ab"],
  .rule c!"word" [.rule c!"sp" [.val c!" "]], .rule c!"word" [.val c!"Q"]]

theorem exParse : parse c!"ab Q" exRules = .ok exTree :=
  parse_of_fuel (f := 20) (by decide +kernel) (by simp)

theorem exBounds : RulesBoundsOK exRules := by
  intro ne h
  simp only [exRules, List.mem_cons, List.not_mem_nil, or_false] at h
  rcases h with rfl | rfl | rfl
  · refine .and ?_
    intro e he
    simp only [List.mem_cons, List.not_mem_nil, or_false] at he
    rcases he with rfl | rfl
    · exact .rep (.ruleName _) (by simp)
    · exact .not (.simple _)
  · refine .or ?_
    intro e he
    simp only [List.mem_cons, List.not_mem_nil, or_false] at he
    rcases he with rfl | rfl | rfl
    · exact .simple _
    · exact .simple _
    · exact .ruleName _
  · exact .simple _

/-! ### C01 -/

/-- **C01**: if `parse` returns `Ok(t)`, the run of the rule `main` that produced `t` consumed all of the
text, and the PEG semantics says so too. -/
theorem C01_ok_means_everything_consumed {s : Str} {R : SetOfRules} {t : Node}
    (h : parse s R = .ok t) :
    (∃ st, runRule R (Status.init s) c!"main" = .ok (st, t) ∧ st.itParsing = [] ∧
      st.pos.n = s.length) ∧
    Peg (denotes R) (.ruleName c!"main") s (.ok [] [t]) := by
  rw [parse_eq] at h
  cases hr : runRule R (Status.init s) c!"main" with
  | ok x =>
    obtain ⟨st, ast⟩ := x
    rw [hr] at h
    simp only at h
    by_cases hn : st.pos.n = byteLen s
    · rw [if_pos hn] at h
      cases h
      have hI := (inv_main hr).toInv
      obtain ⟨h1, h2⟩ := inv_end hI hn
      refine ⟨⟨st, rfl, h1, by rw [hn, byteLen_ascii h2]⟩, ?_⟩
      have := runRule_main_ok hr
      rw [h1] at this; exact this
    · rw [if_neg hn] at h
      cases hp : st.potentialError with
      | some e => rw [hp] at h; cases h
      | none => rw [hp] at h; exact absurd h raise_ok
  | err e => rw [hr] at h; cases h
  | panic => rw [hr] at h; cases h
  | diverge => rw [hr] at h; cases h

example : ∃ s R t, parse s R = .ok t ∧ s ≠ [] := ⟨_, _, _, exParse, by simp⟩

/-- **C01**, contrapositive at the level of the semantics: when `main` matches only a proper prefix,
`parse` does not return `Ok`, whatever the tree. -/
theorem C01_prefix_is_not_ok {s : Str} {R : SetOfRules} {t t' : Node} {c : Char} {r : Str}
    (h : Peg (denotes R) (.ruleName c!"main") s (.ok (c :: r) [t])) : parse s R ≠ .ok t' := by
  intro hp
  have := peg_det h (C01_ok_means_everything_consumed hp).2
  cases this

example : ∃ R t, Peg (denotes R) (.ruleName c!"main") c!"ab" (.ok c!"b" [t]) :=
  ⟨⟨[(c!"main", .simple .dot)]⟩, _, .call_ok rfl (.dot_ok 'a' ['b'])⟩

/-! ### C02 -/

theorem parse_of_run_ok {R s st t} (ha : Ascii s)
    (h : runRule R (Status.init s) c!"main" = .ok (st, t)) (hr : st.itParsing = []) :
    parse s R = .ok t := by
  rw [parse_eq, h]
  simp only
  rw [if_pos ((end_inv (inv_main h).toInv ha).2 hr)]

/-- **C02**, for every rule set: on ASCII text, `parse` returns `Ok(t)` exactly when the PEG semantics of
the rules (with the bounds that are enforced) derives `t` for `main` on the whole text. -/
theorem C02_parse_ok_iff_peg_any_bounds {s : Str} (R : SetOfRules) (t : Node) (ha : Ascii s) :
    parse s R = .ok t ↔ Peg (denotes R) (.ruleName c!"main") s (.ok [] [t]) := by
  constructor
  · intro h; exact (C01_ok_means_everything_consumed h).2
  · intro h
    rcases main_complete h with hp | hc
    · exact absurd hp (runRule_ne_panic ha (invP_init s))
    · obtain ⟨st', h1, h2⟩ := hc
      cases hx : runRule R (Status.init s) c!"main" with
      | ok x =>
        rw [hx] at h1
        simp only [asExpr, Out.ok.injEq, Prod.mk.injEq, List.cons.injEq, and_true] at h1
        obtain ⟨h3, h4⟩ := h1
        have hx' : runRule R (Status.init s) c!"main" = .ok (x.1, t) := by rw [hx, ← h4]
        exact parse_of_run_ok ha hx' (by rw [h3]; exact h2)
      | err e => rw [hx] at h1; cases h1
      | panic => rw [hx] at h1; cases h1
      | diverge => rw [hx] at h1; cases h1

/-- **C02**: on ASCII text, for rules with satisfiable bounds, `parse` returns `Ok(t)` exactly when the
PEG semantics of the rules derives `t` for `main` on the whole text. -/
theorem C02_parse_ok_iff_peg {s : Str} {R : SetOfRules} (t : Node) (ha : Ascii s)
    (hb : RulesBoundsOK R) :
    parse s R = .ok t ↔ Peg (grammar R) (.ruleName c!"main") s (.ok [] [t]) := by
  rw [C02_parse_ok_iff_peg_any_bounds R t ha, denotes_of_boundsOK hb]

theorem exAscii : Ascii c!"ab Q" := by
  intro c hc
  simp only [List.mem_cons, List.not_mem_nil, or_false] at hc
  rcases hc with rfl | rfl | rfl | rfl <;> decide

example : Peg (grammar exRules) (.ruleName c!"main") c!"ab Q" (.ok [] [exTree]) :=
  (C02_parse_ok_iff_peg _ exAscii exBounds).1 exParse

/-- **C02**: on ASCII text `parse` returns an error exactly when the semantics has an outcome which is
not a match of the whole text. -/
theorem C02_parse_err_iff_peg_any_bounds {s : Str} {R : SetOfRules} (ha : Ascii s) :
    (∃ e, parse s R = .err e) ↔
      ∃ o, Peg (denotes R) (.ruleName c!"main") s o ∧ ∀ ns, o ≠ .ok [] ns := by
  constructor
  · rintro ⟨e, h⟩
    rw [parse_eq] at h
    cases hr : runRule R (Status.init s) c!"main" with
    | ok x =>
      obtain ⟨st, ast⟩ := x
      refine ⟨_, runRule_main_ok hr, ?_⟩
      intro ns hns
      have := parse_of_run_ok ha hr (Outcome.ok.inj hns).1
      rw [parse_eq, h] at this; cases this
    | err er =>
      rcases runRule_main_err hr with ⟨_, h1⟩ | ⟨_, _, _, _, _, h1⟩
      · exact ⟨_, h1, by simp⟩
      · exact ⟨_, h1, by simp⟩
    | panic => rw [hr] at h; cases h
    | diverge => rw [hr] at h; cases h
  · rintro ⟨o, ho, hne⟩
    rcases main_complete ho with hp | hc
    · exact absurd hp (runRule_ne_panic ha (invP_init s))
    · rw [parse_eq]
      cases hx : runRule R (Status.init s) c!"main" with
      | ok x =>
        obtain ⟨st, ast⟩ := x
        simp only
        have hI := (inv_main hx).toInv
        by_cases hn : st.pos.n = byteLen s
        · exfalso
          have h1 := runRule_main_ok hx
          rw [(inv_end hI hn).1] at h1
          exact hne _ (peg_det ho h1)
        · rw [if_neg hn]
          cases st.potentialError with
          | some e => exact ⟨e, rfl⟩
          | none =>
            obtain ⟨e, he, _⟩ := raise_ascii (α := Node) (d := .notConsumed) (p := .normal) ha hI
            exact ⟨e, he⟩
      | err e => exact ⟨e, rfl⟩
      | panic => exact absurd hx (runRule_ne_panic ha (invP_init s))
      | diverge =>
        rw [hx] at hc
        cases o <;> obtain ⟨_, h1, _⟩ := hc <;> cases h1

/-- The same for rules whose bounds can be met. -/
theorem C02_parse_err_iff_peg {s : Str} {R : SetOfRules} (ha : Ascii s) (hb : RulesBoundsOK R) :
    (∃ e, parse s R = .err e) ↔
      ∃ o, Peg (grammar R) (.ruleName c!"main") s o ∧ ∀ ns, o ≠ .ok [] ns := by
  rw [← denotes_of_boundsOK hb]
  exact C02_parse_err_iff_peg_any_bounds ha

/-- **C02**: on ASCII text `parse` fails to return exactly when the semantics has no outcome at all. -/
theorem C02_parse_diverges_iff_peg_any_bounds {s : Str} {R : SetOfRules} (ha : Ascii s) :
    parse s R = .diverge ↔ ¬ ∃ o, Peg (denotes R) (.ruleName c!"main") s o := by
  constructor
  · rintro h ⟨o, ho⟩
    by_cases hns : ∃ ns, o = .ok [] ns
    · obtain ⟨ns, rfl⟩ := hns
      have : ∃ t, ns = [t] := by
        cases ho with
        | call_ok _ _ => exact ⟨_, rfl⟩
      obtain ⟨t, rfl⟩ := this
      rw [(C02_parse_ok_iff_peg_any_bounds R t ha).2 ho] at h; cases h
    · obtain ⟨e, he⟩ := (C02_parse_err_iff_peg_any_bounds ha).2 ⟨o, ho, fun ns hn => hns ⟨ns, hn⟩⟩
      rw [he] at h; cases h
  · intro h
    cases hp : parse s R with
    | ok t => exact absurd ⟨_, (C02_parse_ok_iff_peg_any_bounds R t ha).1 hp⟩ h
    | err e =>
      obtain ⟨o, ho, _⟩ := (C02_parse_err_iff_peg_any_bounds ha).1 ⟨e, hp⟩
      exact absurd ⟨o, ho⟩ h
    | panic =>
      rw [parse_eq] at hp
      cases hx : runRule R (Status.init s) c!"main" with
      | ok x =>
        obtain ⟨st, ast⟩ := x
        rw [hx] at hp
        simp only at hp
        split at hp
        · cases hp
        · cases hq : st.potentialError with
          | some e => rw [hq] at hp; cases hp
          | none =>
            rw [hq] at hp
            obtain ⟨e, he, _⟩ := raise_ascii (α := Node) (d := .notConsumed) (p := .normal) ha
              (inv_main hx).toInv
            simp only at hp
            rw [he] at hp; cases hp
      | err e => rw [hx] at hp; cases hp
      | panic => exact absurd hx (runRule_ne_panic ha (invP_init s))
      | diverge => rw [hx] at hp; cases hp
    | diverge => rfl

/-- The same for rules whose bounds can be met. -/
theorem C02_parse_diverges_iff_peg {s : Str} {R : SetOfRules} (ha : Ascii s) (hb : RulesBoundsOK R) :
    parse s R = .diverge ↔ ¬ ∃ o, Peg (grammar R) (.ruleName c!"main") s o := by
  rw [← denotes_of_boundsOK hb]
  exact C02_parse_diverges_iff_peg_any_bounds ha

/-! ### C03 -/

theorem textL_append (a b : List Node) : textL (a ++ b) = textL a ++ textL b := by
  unfold textL
  induction a with
  | nil => simp [leavesL]
  | cons n a ih =>
    simp only [List.cons_append, leavesL, List.flatten_append] at *
    rw [ih]; simp

theorem peg_text {G : Str → Option Expr} (hG : ∀ n e, G n = some e → NoEof e) {e s o}
    (h : Peg G e s o) : NoEof e → ∀ r ns, o = .ok r ns → s = textL ns ++ r := by
  induction h with
  | lit_ok l r => intro _ r' ns h; cases h; simp [textL, leavesL, leaves]
  | class_ok cs rs c r => intro _ r' ns h; cases h; simp [textL, leavesL, leaves]
  | dot_ok c r => intro _ r' ns h; cases h; simp [textL, leavesL, leaves]
  | eof_ok => intro hn; cases hn with | simple h => exact absurd rfl h
  | and_nil s => intro _ r' ns h; cases h; simp [textL, leavesL]
  | and_ok h1 h2 ih1 ih2 =>
    intro hn r' ns h
    cases h
    cases hn with
    | and hn =>
      have := ih1 (hn _ (by simp)) _ _ rfl
      rw [textL_append, this, ih2 (.and fun e he => hn e (by simp [he])) _ _ rfl]; simp
  | or_ok _ ih =>
    intro hn r' ns h
    cases hn with
    | or hn => exact ih (hn _ (by simp)) _ _ h
  | or_next _ _ _ ih =>
    intro hn r' ns h
    cases hn with
    | or hn => exact ih (.or fun e he => hn e (by simp [he])) _ _ h
  | not_fail => intro _ r' ns h; cases h; simp [textL, leavesL]
  | not_crit => intro _ r' ns h; cases h; simp [textL, leavesL]
  | rep_full => intro _ r' ns h; cases h; simp [textL, leavesL]
  | rep_stop => intro _ r' ns h; cases h; simp [textL, leavesL]
  | rep_more _ h1 h2 ih1 ih2 =>
    intro hn r' ns h
    cases h
    cases hn with
    | rep hn =>
      have := ih1 hn _ _ rfl
      rw [textL_append, this, ih2 (.rep hn) _ _ rfl]; simp
  | call_ok hg _ ih =>
    intro hn r' ns h
    cases h
    have := ih (hG _ _ hg) _ _ rfl
    rw [this]; simp [textL, leavesL, leaves]
  | _ => intro _ r' ns h; cases h

mutual
theorem noEof_effective : ∀ {e}, NoEof e → NoEof (effective e)
  | .simple a, h => by rw [effective]; exact h
  | .and es, h => by
    rw [effective]
    cases h with
    | and h => exact .and (noEof_effectives h)
  | .or es, h => by
    rw [effective]
    cases h with
    | or h => exact .or (noEof_effectives h)
  | .not e, h => by rw [effective]; exact .not _
  | .rep e mn none, h => by
    rw [effective]
    cases h with
    | rep h => exact .rep (noEof_effective h)
  | .rep e mn (some 0), h => by
    rw [effective]
    cases h with
    | rep h => exact .rep (noEof_effective h)
  | .rep e mn (some (m + 1)), h => by
    rw [effective]
    cases h with
    | rep h => exact .rep (noEof_effective h)
  | .ruleName n, h => by rw [effective]; exact h
theorem noEof_effectives : ∀ {es}, (∀ e ∈ es, NoEof e) → ∀ e ∈ effectives es, NoEof e
  | [], _, e, he => by simp [effectives] at he
  | e' :: es, h, e, he => by
    rw [effectives, List.mem_cons] at he
    rcases he with rfl | he
    · exact noEof_effective (h e' (by simp))
    · exact noEof_effectives (fun x hx => h x (by simp [hx])) e he
end

theorem mem_of_get {R : SetOfRules} {n e} (h : R.get n = some e) : (n, e) ∈ R.entries := by
  unfold SetOfRules.get at h
  obtain ⟨l1, l2, heq, _⟩ := List.lookup_eq_some_iff.mp h
  rw [heq]; simp

/-- **C03**: without EOF atoms, the leaves of the tree returned by `parse` spell the input. -/
theorem C03_leaves_spell_input {s : Str} {R : SetOfRules} {t : Node}
    (hE : ∀ ne ∈ R.entries, NoEof ne.2) (h : parse s R = .ok t) : text t = s := by
  have hp := (C01_ok_means_everything_consumed h).2
  have := peg_text (G := denotes R) (by
    intro n e hg
    unfold denotes at hg
    rw [Option.map_eq_some_iff] at hg
    obtain ⟨e', he', rfl⟩ := hg
    exact noEof_effective (hE _ (mem_of_get he'))) hp (.ruleName _) _ _ rfl
  rw [this]
  simp [textL, leavesL, text]

theorem exNoEof : ∀ ne ∈ exRules.entries, NoEof ne.2 := by
  intro ne h
  simp only [exRules, List.mem_cons, List.not_mem_nil, or_false] at h
  rcases h with rfl | rfl | rfl
  · refine .and ?_
    intro e he
    simp only [List.mem_cons, List.not_mem_nil, or_false] at he
    rcases he with rfl | rfl
    · exact .rep (.ruleName _)
    · exact .not _
  · refine .or ?_
    intro e he
    simp only [List.mem_cons, List.not_mem_nil, or_false] at he
    rcases he with rfl | rfl | rfl
    · exact .simple (by simp)
    · exact .simple (by simp)
    · exact .ruleName _
  · exact .simple (by simp)

example : text exTree = c!"ab Q" := C03_leaves_spell_input exNoEof exParse

/-- Whatever the rules, what a run consumed is what its leaves spell, up to copies of "EOF" that
    can only be added once the input is exhausted. -/
theorem peg_text_eof {G : Str → Option Expr} {e s o} (h : Peg G e s o) :
    ∀ r ns, o = .ok r ns → s = textL ns ++ r ∨
      r = [] ∧ ∃ k, textL ns = s ++ (List.replicate k c!"EOF").flatten := by
  have comp : ∀ {s q r : Str} {n1 n2 : List Node},
      (s = textL n1 ++ q ∨ q = [] ∧ ∃ k, textL n1 = s ++ (List.replicate k c!"EOF").flatten) →
      (q = textL n2 ++ r ∨ r = [] ∧ ∃ k, textL n2 = q ++ (List.replicate k c!"EOF").flatten) →
      (s = textL (n1 ++ n2) ++ r ∨
        r = [] ∧ ∃ k, textL (n1 ++ n2) = s ++ (List.replicate k c!"EOF").flatten) := by
    intro s q r n1 n2 h1 h2
    rw [textL_append]
    rcases h1 with h1 | ⟨hq, k1, h1⟩
    · rcases h2 with h2 | ⟨hr, k2, h2⟩
      · left; rw [h1, h2]; simp
      · right; exact ⟨hr, k2, by rw [h1, h2]; simp⟩
    · rcases h2 with h2 | ⟨hr, k2, h2⟩
      · rw [hq] at h2
        have h2' := List.append_eq_nil_iff.mp h2.symm
        right; exact ⟨h2'.2, k1, by rw [h1, h2'.1]; simp⟩
      · right
        refine ⟨hr, k1 + k2, ?_⟩
        rw [h1, h2, hq, ← List.replicate_append_replicate, List.flatten_append, List.append_assoc,
          List.nil_append]
  induction h with
  | lit_ok l r => intro r' ns h; cases h; left; simp [textL, leavesL, leaves]
  | class_ok cs rs c r => intro r' ns h; cases h; left; simp [textL, leavesL, leaves]
  | dot_ok c r => intro r' ns h; cases h; left; simp [textL, leavesL, leaves]
  | eof_ok =>
    intro r' ns h; cases h; right; exact ⟨rfl, 1, by simp [textL, leavesL, leaves]⟩
  | and_nil s => intro r' ns h; cases h; left; simp [textL, leavesL]
  | and_ok h1 h2 ih1 ih2 =>
    intro r' ns h
    cases h
    exact comp (ih1 _ _ rfl) (ih2 _ _ rfl)
  | or_ok _ ih => intro r' ns h; exact ih _ _ h
  | or_next _ _ _ ih => intro r' ns h; exact ih _ _ h
  | not_fail => intro r' ns h; cases h; left; simp [textL, leavesL]
  | not_crit => intro r' ns h; cases h; left; simp [textL, leavesL]
  | rep_full => intro r' ns h; cases h; left; simp [textL, leavesL]
  | rep_stop => intro r' ns h; cases h; left; simp [textL, leavesL]
  | rep_more _ h1 h2 ih1 ih2 =>
    intro r' ns h
    cases h
    exact comp (ih1 _ _ rfl) (ih2 _ _ rfl)
  | call_ok hg _ ih =>
    intro r' ns h
    cases h
    have := ih _ _ rfl
    simpa [textL, leavesL, leaves] using this
  | _ => intro r' ns h; cases h

/-- **C03** for every set of rules: the leaves of the tree spell the input, followed by some
    copies of "EOF" (the value of a matched EOF atom) and nothing else. -/
theorem C03_leaves_spell_input_any_rules {s : Str} {R : SetOfRules} {t : Node}
    (h : parse s R = .ok t) : ∃ k, text t = s ++ (List.replicate k c!"EOF").flatten := by
  have hp := (C01_ok_means_everything_consumed h).2
  rcases peg_text_eof hp _ _ rfl with h | ⟨_, k, hk⟩
  · refine ⟨0, ?_⟩
    rw [h]; simp [textL, leavesL, text]
  · exact ⟨k, by rw [← hk]; simp [textL, leavesL, text]⟩

example : ∃ k, text (.rule c!"main" [.val c!"EOF"]) = [] ++ (List.replicate k c!"EOF").flatten :=
  C03_leaves_spell_input_any_rules (R := ⟨[(c!"main", .simple .eof)]⟩)
    (parse_of_fuel (f := 4) (by decide +kernel) (by simp))

/-- **C03** needs the hypothesis: an EOF atom adds the text "EOF" to the leaves. -/
theorem C03_eof_atom_adds_text : ∃ s R t, parse s R = .ok t ∧ text t ≠ s :=
  ⟨[], ⟨[(c!"main", .simple .eof)]⟩, .rule c!"main" [.val c!"EOF"],
    parse_of_fuel (f := 4) (by decide +kernel) (by simp), by simp [text, leaves, leavesL]⟩

/-! ### C04 -/

theorem inst_of_peg {G : Str → Option Expr} {e s o} (h : Peg G e s o) :
    BoundsOK e ∨ (∃ e' mn mx, e = .rep e' mn mx ∧ BoundsOK e' ∧ ∀ m, mx = some m → mn ≤ m) →
    (∀ n e, G n = some e → BoundsOK e) → ∀ r ns, o = .ok r ns → Inst G e ns := by
  intro hb hG
  induction h with
  | lit_ok l r => intro r' ns h; cases h; exact .literal l
  | class_ok cs rs c r hc => intro r' ns h; cases h; exact .char hc
  | dot_ok c r => intro r' ns h; cases h; exact .dot c
  | eof_ok => intro r' ns h; cases h; exact .eof
  | and_nil s => intro r' ns h; cases h; exact .seq_nil
  | and_ok h1 h2 ih1 ih2 =>
    intro r' ns h
    cases h
    rcases hb with hb | ⟨_, _, _, h, _⟩
    · obtain ⟨hb1, hb2⟩ := boundsOK_and_cons hb
      exact .seq (ih1 (Or.inl hb1) _ _ rfl) (ih2 (Or.inl hb2) _ _ rfl)
    · cases h
  | or_ok _ ih =>
    intro r' ns h
    rcases hb with hb | ⟨_, _, _, h, _⟩
    · exact .choice (by simp) (ih (Or.inl (boundsOK_or_cons hb).1) _ _ h)
    · cases h
  | or_next _ _ _ ih =>
    intro r' ns h
    rcases hb with hb | ⟨_, _, _, h, _⟩
    · have := ih (Or.inl (boundsOK_or_cons hb).2) _ _ h
      cases this with
      | choice hm hi => exact .choice (by simp [hm]) hi
    · cases h
  | not_fail => intro r' ns h; cases h; exact .not _
  | not_crit => intro r' ns h; cases h; exact .not _
  | rep_full e mn s =>
    intro r' ns h
    cases h
    have h0 : mn = 0 := by
      rcases hb with hb | ⟨_, _, _, h, _, hm⟩
      · cases hb with
        | rep _ hm => have := hm 0 rfl; omega
      · cases h; have := hm 0 rfl; omega
    subst h0
    exact Inst.rep (copies := []) (by simp) (by simp) (by simp)
  | rep_stop =>
    intro r' ns h
    cases h
    exact Inst.rep (copies := []) (by simp) (by simp) (by simp)
  | @rep_more e mn mx s r r' ns ns' hne h1 h2 ih1 ih2 =>
    intro r'' ns'' h
    cases h
    have hb' : BoundsOK e ∧ ∀ m, mx = some m → mn ≤ m := by
      rcases hb with hb | ⟨_, _, _, h, hb, hm⟩
      · cases hb with
        | rep hb hm => exact ⟨hb, fun m h => (hm m h).2⟩
      · cases h; exact ⟨hb, hm⟩
    obtain ⟨hb, hm⟩ := hb'
    have i1 := ih1 (Or.inl hb) _ _ rfl
    have i2 := ih2 (Or.inr ⟨e, _, _, rfl, hb, by
      intro m h
      cases mx with
      | none => simp at h
      | some m' =>
        simp only [Option.map_some, Option.some.injEq] at h
        have := hm m' rfl
        omega⟩) _ _ rfl
    cases i2 with
    | rep copies hc hlo hhi =>
      refine Inst.rep (copies := ns :: copies) ?_ ?_ ?_
      · intro x hx
        rcases List.mem_cons.mp hx with rfl | hx
        · exact i1
        · exact hc x hx
      · simp only [List.length_cons]; omega
      · intro m hmx
        subst hmx
        have := hhi (m - 1) rfl
        have hm0 : m ≠ 0 := by intro h0; exact hne (by rw [h0])
        simp only [List.length_cons]; omega
  | call_ok hg _ ih =>
    intro r' ns h
    cases h
    exact .call hg (ih (Or.inl (hG _ _ hg)) _ _ rfl)
  | _ => intro r' ns h; cases h

/-- every rule node of an instance is named by a rule and its children are an instance of it -/
theorem inst_under {G : Str → Option Expr} {e ns} (h : Inst G e ns) :
    ∀ t ∈ ns, ∀ n cs, Under t (.rule n cs) → ∃ e, G n = some e ∧ Inst G e cs := by
  induction h with
  | literal | char | dot | eof =>
    intro t ht n cs hu
    simp only [List.mem_singleton] at ht
    subst ht
    cases hu
  | seq_nil => intro t ht; simp at ht
  | not => intro t ht; simp at ht
  | seq _ _ ih1 ih2 =>
    intro t ht n cs hu
    rcases List.mem_append.mp ht with ht | ht
    · exact ih1 t ht n cs hu
    · exact ih2 t ht n cs hu
  | choice _ _ ih => exact ih
  | rep copies hc _ _ ih =>
    intro t ht n cs hu
    obtain ⟨l, hl, htl⟩ := List.mem_flatten.mp ht
    exact ih l hl t htl n cs hu
  | @call n e ns hg hi ih =>
    intro t ht n' cs hu
    simp only [List.mem_singleton] at ht
    subst ht
    cases hu with
    | refl => exact ⟨e, hg, hi⟩
    | child ht' hu => exact ih _ ht' _ _ hu

/-- **C04**: a successful parse returns a `Rule` node named `main`, and every `Rule` node of the tree is
named by a rule of the set and has children of the shape prescribed by the expression of that rule. -/
theorem C04_ast_mirrors_grammar {s : Str} {R : SetOfRules} {t : Node} (hb : RulesBoundsOK R)
    (h : parse s R = .ok t) :
    (∃ cs, t = .rule c!"main" cs) ∧
    ∀ n cs, Under t (.rule n cs) → ∃ e, grammar R n = some e ∧ Inst (grammar R) e cs := by
  have hp := (C01_ok_means_everything_consumed h).2
  rw [denotes_of_boundsOK hb] at hp
  constructor
  · cases hp with
    | call_ok _ _ => exact ⟨_, rfl⟩
  · intro n cs hu
    exact inst_under (inst_of_peg hp (Or.inl (.ruleName _)) (fun n e hg => getBounds hb hg) _ _ rfl)
      t (by simp) n cs hu

example : ∃ e, grammar exRules c!"sp" = some e ∧ Inst (grammar exRules) e [.val c!" "] :=
  (C04_ast_mirrors_grammar exBounds exParse).2 c!"sp" _
    (.child (t := .rule c!"word" [.rule c!"sp" [.val c!" "]]) (by simp)
      (.child (List.mem_singleton_self _) (.refl _)))

/-- **C04**, whatever the bounds: the children of every `Rule` node have the shape prescribed by the
expression of that rule, its repetitions read with the bounds that are enforced (`Spec/Bounds.lean`). -/
theorem C04_ast_mirrors_grammar_any_bounds {s : Str} {R : SetOfRules} {t : Node} (h : parse s R = .ok t) :
    (∃ cs, t = .rule c!"main" cs) ∧
    ∀ n cs, Under t (.rule n cs) → ∃ e, grammar R n = some e ∧ Inst (denotes R) (effective e) cs := by
  have hp := (C01_ok_means_everything_consumed h).2
  constructor
  · cases hp with
    | call_ok _ _ => exact ⟨_, rfl⟩
  · intro n cs hu
    obtain ⟨e, he, hi⟩ := inst_under (inst_of_peg hp (Or.inl (.ruleName _)) (fun n e hg => by
      obtain ⟨e', _, rfl⟩ := Option.map_eq_some_iff.1 hg
      exact boundsOK_effective e') _ _ rfl) t (by simp) n cs hu
    obtain ⟨e', he', rfl⟩ := Option.map_eq_some_iff.1 he
    exact ⟨e', he', hi⟩

/-- `rep!(lit!("a"), 3, 2)` under `main`: the node has two children. -/
example : ∃ e, grammar ⟨[(c!"main", .rep (.simple (.literal c!"a")) 3 (some 2))]⟩ c!"main" = some e ∧
    Inst (denotes ⟨[(c!"main", .rep (.simple (.literal c!"a")) 3 (some 2))]⟩) (effective e)
      [.val c!"a", .val c!"a"] :=
  (C04_ast_mirrors_grammar_any_bounds (s := c!"aa")
    (t := .rule c!"main" [.val c!"a", .val c!"a"])
    (parse_of_fuel (f := 20) (by decide +kernel) (by simp))).2 _ _ (.refl _)

/-! ### C09 -/

/-- The descriptive notion of "reaching an error atom or undefined rule" is the critical outcome. -/
theorem hits_iff_crit {G e s d q} : Hits G e s d q ↔ Peg G e s (.crit d q) := by
  constructor
  · intro h
    induction h with
    | error m s => exact .error m s
    | missing h => exact .call_missing h
    | call h _ ih => exact .call_crit h ih
    | seq_here _ ih => exact .and_crit ih
    | seq_later h _ ih => exact .and_tail_crit h ih
    | choice_here _ ih => exact .or_crit ih
    | choice_later h _ ih => exact .or_next h ih
    | rep_here h _ ih => exact .rep_crit h ih
    | rep_later h h1 _ ih => exact .rep_more_crit h h1 ih
  · intro h
    generalize ho : Outcome.crit d q = o at h
    induction h with
    | error m s => cases ho; exact .error m _
    | and_crit _ ih => cases ho; exact .seq_here (ih rfl)
    | and_tail_crit h _ _ ih => cases ho; exact .seq_later h (ih rfl)
    | or_crit _ ih => cases ho; exact .choice_here (ih rfl)
    | or_next h _ _ ih => cases ho; exact .choice_later h (ih rfl)
    | rep_crit hne _ ih => cases ho; exact .rep_here hne (ih rfl)
    | rep_more_crit hne h _ _ ih => cases ho; exact .rep_later hne h (ih rfl)
    | call_crit hg _ ih => cases ho; exact .call hg (ih rfl)
    | call_missing hg => cases ho; exact .missing hg
    | _ => cases ho

/-- **C09**: reaching an `error` atom or an undefined rule outside negations is final: `parse` returns
that error, Critical, with the coordinates of the point where it was reached. -/
theorem C09_critical_errors_are_final {s q : Str} {R : SetOfRules} {d : Descr} (ha : Ascii s)
    (h : Hits (denotes R) (.ruleName c!"main") s d q) :
    ∃ e, parse s R = .err e ∧ e.priority = .critical ∧ e.descr = d ∧
      ∃ pre, s = pre ++ q ∧ CoordsOf pre e.pos := by
  rcases main_complete (hits_iff_crit.1 h) with hp | hc
  · exact absurd hp (runRule_ne_panic ha (invP_init s))
  · obtain ⟨er, h1, h2, h3, h4⟩ := hc
    rw [parse_eq]
    cases hx : runRule R (Status.init s) c!"main" with
    | ok x => rw [hx] at h1; cases h1
    | err e => rw [hx] at h1; cases h1; exact ⟨_, rfl, h2, h3, h4⟩
    | panic => rw [hx] at h1; cases h1
    | diverge => rw [hx] at h1; cases h1

/-- `main = ('a' error("no b") / .)*` reaches its error on "xa" at the end of the text. -/
example : Hits (denotes ⟨[(c!"main", .rep (.or [.and [.simple (.literal c!"a"),
      .simple (.error c!"no b")], .simple .dot]) 0 none)]⟩)
    (.ruleName c!"main") c!"xa" (.custom c!"no b") [] := by
  refine .call rfl (.rep_later (by simp) (.or_next (.and_fail (.lit_fail _ _ (by decide)))
    (.or_ok (.dot_ok _ _))) (.rep_here (by simp) (.choice_here (.seq_later (.lit_ok c!"a" []) (.seq_here
      (.error _ _))))))

/-- the errors kept by repetitions are not critical -/
theorem preserved_pot_normal (R : SetOfRules) : Preserved R (fun _ => True)
    (fun st => ∀ e, st.potentialError = some e → e.priority ≠ .critical) (fun _ => True) True where
  get h hg := by rw [(getChar_ok hg).2.2.1]; exact h
  push h _ _ := h
  pot _ _ hc := by intro e h; cases h; exact hc
  err _ _ _ := trivial
  pan _ _ _ := trivial

/-- **C09**, converse: a Critical error returned by `parse` is one that was reached. (Errors kept by a
repetition are never Critical, so the error of an incomplete match is not.) -/
theorem C09_critical_errors_were_reached {s : Str} {R : SetOfRules} {e : Error}
    (h : parse s R = .err e) (hc : e.priority = .critical) :
    ∃ pre q, s = pre ++ q ∧ CoordsOf pre e.pos ∧
      Hits (denotes R) (.ruleName c!"main") s e.descr q := by
  rw [parse_eq] at h
  cases hx : runRule R (Status.init s) c!"main" with
  | ok x =>
    obtain ⟨st, ast⟩ := x
    rw [hx] at h
    simp only at h
    exfalso
    split at h
    · cases h
    · cases hq : st.potentialError with
      | some er =>
        rw [hq] at h
        cases h
        have := good_runRule (preserved_pot_normal R) (fun _ _ _ _ _ => trivial) (n := c!"main")
          (st := Status.init s) (by intro e he; cases he) trivial
        rw [hx] at this
        exact this _ hq hc
      | none =>
        rw [hq] at h
        have := (fromStatus_fields (raise_err h)).2.2.1
        rw [hc] at this; cases this
  | err er =>
    rw [hx] at h
    cases h
    rcases runRule_main_err hx with ⟨h1, _⟩ | ⟨_, pre, r, h1, h2, h3⟩
    · rw [hc] at h1; cases h1
    · exact ⟨pre, r, h1, h2, hits_iff_crit.2 h3⟩
  | panic => rw [hx] at h; cases h
  | diverge => rw [hx] at h; cases h

end DP
