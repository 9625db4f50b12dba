/-
The PEG semantics is deterministic, and the parser finishes wherever the semantics has an outcome.
-/
import Verif.Proofs.Sound

namespace DP
open Spec

theorem lit_inv {G l s o} (h : Peg G (.simple (.literal l)) s o) :
    (∃ r, s = l ++ r ∧ o = .ok r [.val l]) ∨ (¬ l <+: s ∧ o = .fail) := by
  cases h with
  | lit_ok _ r => exact Or.inl ⟨r, rfl, rfl⟩
  | lit_fail _ _ h => exact Or.inr ⟨h, rfl⟩

/-- An expression has at most one outcome at each point. -/
theorem peg_det {G e s o} (h : Peg G e s o) : ∀ {o'}, Peg G e s o' → o = o' := by
  induction h with
  | lit_ok l r =>
    intro o' h'
    rcases lit_inv h' with ⟨r', h1, h2⟩ | ⟨h1, _⟩
    · rw [List.append_cancel_left_eq] at h1; rw [h1, h2]
    · exact absurd (List.prefix_append _ _) h1
  | lit_fail l s hn =>
    intro o' h'
    rcases lit_inv h' with ⟨r', h1, h2⟩ | ⟨_, h2⟩
    · exact absurd ⟨r', h1.symm⟩ hn
    · exact h2.symm
  | class_ok cs rs c r hc => intro o' h'; cases h' <;> first | rfl | contradiction
  | class_fail cs rs c r hc => intro o' h'; cases h' <;> first | rfl | contradiction
  | class_end cs rs => intro o' h'; cases h'; rfl
  | dot_ok => intro o' h'; cases h'; rfl
  | dot_end => intro o' h'; cases h'; rfl
  | eof_ok => intro o' h'; cases h'; rfl
  | eof_fail => intro o' h'; cases h'; rfl
  | error => intro o' h'; cases h'; rfl
  | and_nil => intro o' h'; cases h'; rfl
  | or_nil => intro o' h'; cases h'; rfl
  | and_ok _ _ ih1 ih2 => intro o' h'; cases h' <;> grind
  | and_fail _ ih => intro o' h'; cases h' <;> grind
  | and_crit _ ih => intro o' h'; cases h' <;> grind
  | and_tail_fail _ _ ih1 ih2 => intro o' h'; cases h' <;> grind
  | and_tail_crit _ _ ih1 ih2 => intro o' h'; cases h' <;> grind
  | or_ok _ ih => intro o' h'; cases h' <;> grind
  | or_crit _ ih => intro o' h'; cases h' <;> grind
  | or_next _ _ ih1 ih2 => intro o' h'; cases h' <;> grind
  | not_ok _ ih => intro o' h'; cases h' <;> grind
  | not_fail _ ih => intro o' h'; cases h' <;> grind
  | not_crit _ ih => intro o' h'; cases h' <;> grind
  | rep_full => intro o' h'; cases h' <;> first | rfl | contradiction
  | rep_more _ _ _ ih1 ih2 => intro o' h'; cases h' <;> grind
  | rep_stop _ _ ih => intro o' h'; cases h' <;> grind
  | rep_few _ _ _ ih => intro o' h'; cases h' <;> grind
  | rep_crit _ _ ih => intro o' h'; cases h' <;> grind
  | rep_more_fail _ _ _ ih1 ih2 => intro o' h'; cases h' <;> grind
  | rep_more_crit _ _ _ ih1 ih2 => intro o' h'; cases h' <;> grind
  | call_ok _ _ ih => intro o' h'; cases h' <;> grind
  | call_fail _ _ ih => intro o' h'; cases h' <;> grind
  | call_crit _ _ ih => intro o' h'; cases h' <;> grind
  | call_missing => intro o' h'; cases h' <;> grind

/-- What "the parser finishes at `st`" means for each kind of expression (loops are generalised over
their accumulators). -/
def Fin (R : SetOfRules) (st : Status) : Expr → Prop
  | .and es => ∀ acc, ∃ f, parseAnd R f st es acc ≠ .diverge
  | .or es => ∀ acc, ∃ f, parseOr R f st es acc ≠ .diverge
  | .rep e a b => ∀ mn mx k acc, a = mn - k → b = mx.map (· - k) → (∀ m, mx = some m → k < m) →
      ∃ f, parseRepeat R f e mn mx st k acc ≠ .diverge
  | e => ∃ f, parseExpr R f st e ≠ .diverge

/-- Bounds of the parts of an expression. -/
def SubOK : Expr → Prop
  | .rep e _ _ => BoundsOK e
  | e => BoundsOK e

theorem subOK_of {e} (h : BoundsOK e) : SubOK e := by
  cases h <;> simp only [SubOK]
  · exact .simple _
  · exact .and ‹_›
  · exact .or ‹_›
  · exact .not ‹_›
  · assumption
  · exact .ruleName _

theorem fin_expr {R st e} (hb : BoundsOK e) (h : Fin R st e) : ∃ f, parseExpr R f st e ≠ .diverge := by
  cases hb with
  | simple a => exact h
  | and _ => obtain ⟨f, hf⟩ := h []; exact ⟨f + 1, by rw [parseExpr]; exact hf⟩
  | or _ => obtain ⟨f, hf⟩ := h none; exact ⟨f + 1, by rw [parseExpr]; exact hf⟩
  | not _ => exact h
  | @rep e mn mx _ hm =>
    obtain ⟨f, hf⟩ := h mn mx 0 [] rfl (by cases mx <;> rfl) (fun m hmx => (hm m hmx).1)
    exact ⟨f + 1, by rw [parseExpr]; exact hf⟩
  | ruleName => exact h

theorem boundsOK_and_cons {e es} (h : BoundsOK (.and (e :: es))) : BoundsOK e ∧ BoundsOK (.and es) := by
  cases h with
  | and h => exact ⟨h e (by simp), .and (fun x hx => h x (by simp [hx]))⟩

theorem boundsOK_or_cons {e es} (h : BoundsOK (.or (e :: es))) : BoundsOK e ∧ BoundsOK (.or es) := by
  cases h with
  | or h => exact ⟨h e (by simp), .or (fun x hx => h x (by simp [hx]))⟩

theorem boundsOK_not {e} (h : BoundsOK (.not e)) : BoundsOK e := by
  cases h with
  | not h => exact h

theorem literalLoop_ne_diverge (lit l st) : parseLiteralLoop lit st l ≠ .diverge := by
  intro h
  have := literalLoop_sound lit l st
  rw [h] at this; exact this

theorem atom_ne_diverge (st a) : parseAtomAsExpr st a ≠ .diverge := by
  rw [parseAtomAsExpr_eq]
  suffices h : parseAtom st a ≠ .diverge by
    cases h' : parseAtom st a <;> first | (exact absurd h' h) | simp [asExpr]
  cases a with
  | literal l =>
    simp only [parseAtom, parseLiteral]
    have := literalLoop_ne_diverge l l st
    cases h : parseLiteralLoop l st l <;> simp_all
  | error m => exact raise_diverge
  | mtch cs rs =>
    simp only [parseAtom, parseMatch]
    split
    · split
      · simp
      · exact raise_diverge
    · exact raise_diverge
  | dot =>
    simp only [parseAtom, parseDot]
    split
    · simp
    · exact raise_diverge
  | eof =>
    simp only [parseAtom, parseEof]
    split
    · exact raise_diverge
    · simp

theorem sound_expr {R : SetOfRules} (hB : RulesBoundsOK R) {text f st e} (hI : Inv text st)
    (hb : BoundsOK e) : SoundRes (grammar R) text e st.itParsing (parseExpr R f st e) :=
  (sound R hB text f).2.1 st e hI hb

theorem halts {R : SetOfRules} (hB : RulesBoundsOK R) (text : Str) {e s o}
    (h : Peg (grammar R) e s o) : SubOK e → ∀ st, Inv text st → st.itParsing = s → Fin R st e := by
  have ok_of : ∀ {e s r ns}, Peg (grammar R) e s (.ok r ns) → BoundsOK e → ∀ {st}, Inv text st →
      st.itParsing = s → Fin R st e →
      ∃ f, parseExpr R f st e = .panic ∨
        ∃ x, parseExpr R f st e = .ok x ∧ Inv text x.1 ∧ x.1.itParsing = r := by
    intro e s r ns hp hb st hI hs hf
    obtain ⟨f, hf⟩ := fin_expr hb hf
    have h1 := sound_expr hB (f := f) hI hb
    rw [hs] at h1
    refine ⟨f, ?_⟩
    cases hx : parseExpr R f st e with
    | ok x =>
      rw [hx] at h1
      have := peg_det hp h1
      cases this
      exact Or.inr ⟨x, rfl, inv_after hI hx, rfl⟩
    | err er =>
      rw [hx] at h1
      rcases h1 with ⟨_, h2⟩ | ⟨_, _, _, _, _, h2⟩ <;> exact absurd (peg_det hp h2) (by simp)
    | panic => exact Or.inl rfl
    | diverge => exact absurd hx hf
  have err_of : ∀ {e s o}, Peg (grammar R) e s o → (∀ r ns, o ≠ .ok r ns) → BoundsOK e →
      ∀ {st}, Inv text st → st.itParsing = s → Fin R st e →
      ∃ f, parseExpr R f st e = .panic ∨ ∃ er, parseExpr R f st e = .err er := by
    intro e s o hp ho hb st hI hs hf
    obtain ⟨f, hf⟩ := fin_expr hb hf
    have h1 := sound_expr hB (f := f) hI hb
    rw [hs] at h1
    refine ⟨f, ?_⟩
    cases hx : parseExpr R f st e with
    | ok x => rw [hx] at h1; exact absurd (peg_det hp h1) (ho _ _)
    | err er => exact Or.inr ⟨er, rfl⟩
    | panic => exact Or.inl rfl
    | diverge => exact absurd hx hf
  have atom : ∀ a st, Fin R st (.simple a) := by
    intro a st
    exact ⟨1, by rw [parseExpr]; exact atom_ne_diverge st a⟩
  -- the loops, once their first step is known to finish
  have and_err : ∀ {e es st} , (∃ f, parseExpr R f st e = .panic ∨ ∃ er, parseExpr R f st e = .err er) →
      Fin R st (.and (e :: es)) := by
    rintro e es st ⟨f, hf⟩ acc
    refine ⟨f + 1, ?_⟩
    rw [parseAnd]
    rcases hf with hf | ⟨er, hf⟩ <;> simp [hf]
  have and_ok : ∀ {e es st r}, (∃ f, parseExpr R f st e = .panic ∨
        ∃ x, parseExpr R f st e = .ok x ∧ Inv text x.1 ∧ x.1.itParsing = r) →
      (∀ st, Inv text st → st.itParsing = r → Fin R st (.and es)) → Fin R st (.and (e :: es)) := by
    rintro e es st r ⟨f, hf⟩ hk acc
    rcases hf with hf | ⟨x, hf, hI, hr⟩
    · exact ⟨f + 1, by rw [parseAnd]; simp [hf]⟩
    · obtain ⟨g, hg⟩ := hk x.1 hI hr (acc ++ x.2)
      refine ⟨max f g + 1, ?_⟩
      rw [parseAnd, parseExpr_mono (Nat.le_max_left f g) hf (by simp)]
      simp only
      intro hd
      exact hg (by_contra fun hne => hne (by
        have := parseAnd_mono (Nat.le_max_right f g) rfl hne
        rw [hd] at this; exact this.symm))
  have rep_err : ∀ {e a b st}, (∃ f, parseExpr R f st e = .panic ∨ ∃ er, parseExpr R f st e = .err er) →
      Fin R st (.rep e a b) := by
    rintro e a b st ⟨f, hf⟩ mn mx k acc _ _ _
    refine ⟨f + 1, ?_⟩
    rw [parseRepeat]
    rcases hf with hf | ⟨er, hf⟩
    · simp [hf]
    · rw [hf]; simp only; split
      · split <;> simp
      · simp
  have rep_ok : ∀ {e a b st r}, b ≠ some 0 → (∃ f, parseExpr R f st e = .panic ∨
        ∃ x, parseExpr R f st e = .ok x ∧ Inv text x.1 ∧ x.1.itParsing = r) →
      (∀ st, Inv text st → st.itParsing = r → Fin R st (.rep e (a - 1) (b.map (· - 1)))) →
      Fin R st (.rep e a b) := by
    rintro e a b st r hb0 ⟨f, hf⟩ hk mn mx k acc ha hb hm
    rcases hf with hf | ⟨x, hf, hI, hr⟩
    · exact ⟨f + 1, by rw [parseRepeat]; simp [hf]⟩
    · by_cases ht : touchMaxBound mx k = true
      · exact ⟨f + 1, by rw [parseRepeat]; simp [hf, ht]⟩
      · have hm' : ∀ m, mx = some m → k + 1 < m := by
          intro m hmx
          have := hm m hmx
          subst hmx
          have : k + 1 ≠ m := by simpa [touchMaxBound] using ht
          omega
        have hb' : b.map (· - 1) = mx.map (· - (k + 1)) := by
          rw [hb]; cases mx with
          | none => rfl
          | some m => simp; omega
        obtain ⟨g, hg⟩ := hk x.1 hI hr mn mx (k + 1) (acc ++ x.2) (by omega) hb' hm'
        refine ⟨max f g + 1, ?_⟩
        rw [parseRepeat, parseExpr_mono (Nat.le_max_left f g) hf (by simp)]
        simp only
        rw [if_neg ht]
        intro hd
        exact hg (by_contra fun hne => hne (by
          have := parseRepeat_mono (Nat.le_max_right f g) rfl hne
          rw [hd] at this; exact this.symm))
  have call : ∀ {n e st}, grammar R n = some e →
      (∃ f, parseExpr R f (if st.traceRules = true then st.pushRule (c!"r:" ++ n) else st) e ≠ .diverge) →
      Fin R st (.ruleName n) := by
    rintro n e st hg ⟨f, hf⟩
    refine ⟨f + 2, ?_⟩
    rw [parseExpr_ruleName, parseRuleName]
    have : R.get n = some e := hg
    rw [this]
    simp only
    generalize parseExpr R f (if st.traceRules = true then st.pushRule (c!"r:" ++ n) else st) e = x at hf
    cases x <;> first | exact absurd rfl hf | simp [asExpr]
  have inv_push : ∀ {st n}, Inv text st →
      Inv text (if st.traceRules = true then st.pushRule (c!"r:" ++ n) else st) := by
    intro st n hI; split
    · exact ⟨hI.text, hI.at_⟩
    · exact hI
  have it_push : ∀ {st : Status} {n},
      (if st.traceRules = true then st.pushRule (c!"r:" ++ n) else st).itParsing = st.itParsing := by
    intro st n; split <;> rfl
  induction h with
  | lit_ok | lit_fail | class_ok | class_fail | class_end | dot_ok | dot_end | eof_ok | eof_fail
  | error => intro _ st _ _; exact atom _ st
  | and_nil s => intro _ st _ _ acc; exact ⟨1, by rw [parseAnd]; simp⟩
  | and_ok h1 h2 ih1 ih2 =>
    intro hb st hI hs
    obtain ⟨hb1, hb2⟩ := boundsOK_and_cons hb
    exact and_ok (ok_of h1 hb1 hI hs (ih1 (subOK_of hb1) st hI hs)) (ih2 hb2)
  | and_fail h1 ih =>
    intro hb st hI hs
    obtain ⟨hb1, hb2⟩ := boundsOK_and_cons hb
    exact and_err (err_of h1 (by simp) hb1 hI hs (ih (subOK_of hb1) st hI hs))
  | and_crit h1 ih =>
    intro hb st hI hs
    obtain ⟨hb1, hb2⟩ := boundsOK_and_cons hb
    exact and_err (err_of h1 (by simp) hb1 hI hs (ih (subOK_of hb1) st hI hs))
  | and_tail_fail h1 h2 ih1 ih2 =>
    intro hb st hI hs
    obtain ⟨hb1, hb2⟩ := boundsOK_and_cons hb
    exact and_ok (ok_of h1 hb1 hI hs (ih1 (subOK_of hb1) st hI hs)) (ih2 hb2)
  | and_tail_crit h1 h2 ih1 ih2 =>
    intro hb st hI hs
    obtain ⟨hb1, hb2⟩ := boundsOK_and_cons hb
    exact and_ok (ok_of h1 hb1 hI hs (ih1 (subOK_of hb1) st hI hs)) (ih2 hb2)
  | or_nil s =>
    intro _ st _ _ acc
    refine ⟨1, ?_⟩
    cases acc with
    | none => rw [parseOr]; exact raise_diverge
    | some e => rw [parseOr]; simp
  | or_ok h1 ih =>
    intro hb st hI hs acc
    obtain ⟨hb1, hb2⟩ := boundsOK_or_cons hb
    obtain ⟨f, hf⟩ := ok_of h1 hb1 hI hs (ih (subOK_of hb1) st hI hs)
    refine ⟨f + 1, ?_⟩
    rw [parseOr]
    rcases hf with hf | ⟨x, hf, _⟩ <;> simp [hf]
  | or_crit h1 ih =>
    intro hb st hI hs acc
    obtain ⟨hb1, hb2⟩ := boundsOK_or_cons hb
    obtain ⟨f, hf⟩ := fin_expr hb1 (ih (subOK_of hb1) st hI hs)
    have hsd := sound_expr hB (f := f) hI hb1
    rw [hs] at hsd
    refine ⟨f + 1, ?_⟩
    rw [parseOr]
    cases hx : parseExpr R f st _ with
    | ok x => simp
    | err er =>
      rw [hx] at hsd
      rcases hsd with ⟨_, h2⟩ | ⟨hcr, _⟩
      · exact absurd (peg_det h1 h2) (by simp)
      · simp [hcr]
    | panic => simp
    | diverge => exact absurd hx hf
  | or_next h1 h2 ih1 ih2 =>
    intro hb st hI hs acc
    obtain ⟨hb1, hb2⟩ := boundsOK_or_cons hb
    obtain ⟨f, hf⟩ := err_of h1 (by simp) hb1 hI hs (ih1 (subOK_of hb1) st hI hs)
    rcases hf with hf | ⟨er, hf⟩
    · exact ⟨f + 1, by rw [parseOr]; simp [hf]⟩
    · obtain ⟨g, hg⟩ := ih2 hb2 st hI hs (deepErr acc er)
      refine ⟨max f g + 1, ?_⟩
      rw [parseOr, parseExpr_mono (Nat.le_max_left f g) hf (by simp)]
      simp only
      split
      · simp
      · intro hd
        exact hg (by_contra fun hne => hne (by
          have := parseOr_mono (Nat.le_max_right f g) rfl hne
          rw [hd] at this; exact this.symm))
  | not_ok h1 ih | not_fail h1 ih | not_crit h1 ih =>
    intro hb st hI hs
    have hb1 := boundsOK_not hb
    obtain ⟨f, hf⟩ := fin_expr hb1 (ih (subOK_of hb1) st hI hs)
    refine ⟨f + 1, ?_⟩
    rw [parseExpr]
    cases hx : parseExpr R f st _ with
    | ok x => exact raise_diverge
    | err er => simp
    | panic => simp
    | diverge => exact absurd hx hf
  | rep_full e mn s =>
    intro _ st _ _ mn' mx k acc ha hb hm
    exfalso
    cases mx with
    | none => simp at hb
    | some m => have := hm m rfl; simp at hb; omega
  | rep_more hne h1 h2 ih1 ih2 =>
    intro hb st hI hs
    exact rep_ok hne (ok_of h1 hb hI hs (ih1 (subOK_of hb) st hI hs)) (ih2 hb)
  | rep_stop hne h1 ih =>
    intro hb st hI hs
    exact rep_err (err_of h1 (by simp) hb hI hs (ih (subOK_of hb) st hI hs))
  | rep_few hne _ h1 ih =>
    intro hb st hI hs
    exact rep_err (err_of h1 (by simp) hb hI hs (ih (subOK_of hb) st hI hs))
  | rep_crit hne h1 ih =>
    intro hb st hI hs
    exact rep_err (err_of h1 (by simp) hb hI hs (ih (subOK_of hb) st hI hs))
  | rep_more_fail hne h1 h2 ih1 ih2 =>
    intro hb st hI hs
    exact rep_ok hne (ok_of h1 hb hI hs (ih1 (subOK_of hb) st hI hs)) (ih2 hb)
  | rep_more_crit hne h1 h2 ih1 ih2 =>
    intro hb st hI hs
    exact rep_ok hne (ok_of h1 hb hI hs (ih1 (subOK_of hb) st hI hs)) (ih2 hb)
  | call_ok hg h1 ih | call_fail hg h1 ih | call_crit hg h1 ih =>
    intro hb st hI hs
    have hb1 := getBounds hB hg
    exact call hg
      (fin_expr hb1 (ih (subOK_of hb1) _ (inv_push hI) (by rw [it_push]; exact hs)))
  | call_missing hg =>
    intro hb st hI hs
    refine ⟨2, ?_⟩
    rw [parseExpr_ruleName, parseRuleName]
    have hg' : R.get _ = none := hg
    rw [hg']
    simp only
    rw [asExpr_raise]
    exact raise_diverge

/-- A result of the parser agrees with an outcome of the semantics. -/
def Agrees (text : Str) (x : Out Error (Status × List Node)) : Outcome → Prop
  | .ok r ns => ∃ st', x = .ok (st', ns) ∧ st'.itParsing = r
  | .fail => ∃ er, x = .err er ∧ er.priority = .normal
  | .crit d r => ∃ er, x = .err er ∧ er.priority = .critical ∧ er.descr = d ∧
      ∃ pre, text = pre ++ r ∧ CoordsOf pre er.pos

/-- The parser's answer wherever the PEG semantics has one (up to the panics of error construction). -/
theorem complete {R : SetOfRules} (hB : RulesBoundsOK R) {text e o st} (hI : Inv text st)
    (hb : BoundsOK e) (h : Peg (grammar R) e st.itParsing o) :
    ∃ f, parseExpr R f st e = .panic ∨ Agrees text (parseExpr R f st e) o := by
  obtain ⟨f, hf⟩ := fin_expr hb (halts hB text h (subOK_of hb) st hI rfl)
  have hsd := sound_expr hB (f := f) hI hb
  refine ⟨f, ?_⟩
  cases hx : parseExpr R f st e with
  | ok x =>
    rw [hx] at hsd
    have := peg_det h hsd
    subst this
    exact Or.inr ⟨x.1, rfl, rfl⟩
  | err er =>
    rw [hx] at hsd
    rcases hsd with ⟨hn, h2⟩ | ⟨hc, pre, r, hs, hco, h2⟩
    · have := peg_det h h2
      subst this
      exact Or.inr ⟨er, rfl, hn⟩
    · have := peg_det h h2
      subst this
      exact Or.inr ⟨er, rfl, hc, rfl, pre, hs, hco⟩
  | panic => exact Or.inl rfl
  | diverge => exact absurd hx hf

end DP
