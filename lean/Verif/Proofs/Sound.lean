/-
Soundness: what the parser returns is a PEG derivation.
-/
import Verif.Proofs.Position

namespace DP
open Spec

theorem fromStatus_fields {st d p e} (h : fromStatus st d p = some e) :
    e.pos = st.pos ∧ e.descr = d ∧ e.priority = p ∧ e.parsingRules = st.walkingRules := by
  unfold fromStatus at h
  rw [Option.map_eq_some_iff] at h
  obtain ⟨lb, _, rfl⟩ := h
  exact ⟨rfl, rfl, rfl, rfl⟩

theorem raise_ok {α st d p} {x : α} : (raise st d p : Out Error α) ≠ .ok x := by
  unfold raise; split <;> simp

theorem raise_diverge {α st d p} : (raise st d p : Out Error α) ≠ .diverge := by
  unfold raise; split <;> simp

theorem raise_err {α st d p e} (h : (raise st d p : Out Error α) = .err e) :
    fromStatus st d p = some e := by
  unfold raise at h
  split at h
  · rename_i h'; cases h; exact h'
  · cases h

theorem parseChar_ok {st st' ch} (h : parseChar st ch = .ok st') :
    getChar st = .ok (st', ch) := by
  unfold parseChar at h
  cases hg : getChar st with
  | error s => rw [hg] at h; cases h
  | ok x =>
    obtain ⟨s, c⟩ := x
    rw [hg] at h
    simp only at h
    split at h
    · cases h; subst_vars; rfl
    · cases h

theorem parseChar_error {st st' ch} (h : parseChar st ch = .error st') :
    st.itParsing.head? ≠ some ch := by
  unfold parseChar at h
  cases hi : st.itParsing with
  | nil => simp
  | cons c r =>
    cases hg : getChar st with
    | error s => unfold getChar at hg; rw [hi] at hg; cases hg
    | ok x =>
      obtain ⟨s, c'⟩ := x
      rw [hg] at h
      simp only at h
      have := (getChar_ok hg).1
      rw [hi] at this
      cases this
      split at h
      · cases h
      · rename_i hne; simpa using fun hh => hne hh.symm

theorem literalLoop_sound (lit : Str) : ∀ (l : Str) (st : Status),
    match parseLiteralLoop lit st l with
    | .ok st' => st.itParsing = l ++ st'.itParsing
    | .err e => e.priority = .normal ∧ ¬ l <+: st.itParsing
    | .panic => ¬ l <+: st.itParsing
    | .diverge => False := by
  intro l
  induction l with
  | nil => intro st; simp [parseLiteralLoop]
  | cons ch l ih =>
    intro st
    unfold parseLiteralLoop
    cases hc : parseChar st ch with
    | ok st' =>
      have h1 := (getChar_ok (parseChar_ok hc)).1
      have h2 := ih st'
      simp only
      cases h3 : parseLiteralLoop lit st' l with
      | ok st'' => rw [h3] at h2; simp only at h2 ⊢; rw [h1, h2]; rfl
      | err e =>
        rw [h3] at h2; simp only at h2 ⊢
        refine ⟨h2.1, ?_⟩
        rw [h1, List.cons_prefix_cons]; exact fun h => h2.2 h.2
      | panic =>
        rw [h3] at h2; simp only at h2 ⊢
        rw [h1, List.cons_prefix_cons]; exact fun h => h2 h.2
      | diverge => rw [h3] at h2; exact h2
    | error st' =>
      have h1 := parseChar_error hc
      have h2 : ¬ (ch :: l) <+: st.itParsing := by
        rintro ⟨t, ht⟩
        rw [← ht] at h1
        simp at h1
      simp only
      cases h3 : (raise st' (.literal lit) .normal : Out Error Status) with
      | ok s => exact absurd h3 raise_ok
      | err e => exact ⟨(fromStatus_fields (raise_err h3)).2.2.1, h2⟩
      | panic => exact h2
      | diverge => exact absurd h3 raise_diverge

theorem matchChar_iff (cs rs c) : matchChar cs rs c = true ↔ InClass cs rs c := by
  unfold matchChar InClass
  simp only [List.contains_iff_mem]
  have hle : ∀ a b : Char, a ≤ b ↔ a.toNat ≤ b.toNat := by
    intro a b
    rw [Char.le_def, UInt32.le_iff_toNat_le]; rfl
  by_cases h : c ∈ cs
  · simp [h]
  · simp [h, hle]

/-- The result of the parser for `e` at `st`, as a statement about the PEG semantics. -/
def SoundRes (G : Str → Option Expr) (text : Str) (e : Expr) (rest : Str) :
    Out Error (Status × List Node) → Prop
  | .ok x => Peg G e rest (.ok x.1.itParsing x.2)
  | .err er =>
    (er.priority = .normal ∧ Peg G e rest .fail) ∨
    (er.priority = .critical ∧ ∃ pre r, text = pre ++ r ∧ CoordsOf pre er.pos ∧
      Peg G e rest (.crit er.descr r))
  | .panic => True
  | .diverge => True

/-- as `SoundRes`, for loops which extend the accumulator `acc` -/
def SoundResAcc (G : Str → Option Expr) (text : Str) (e : Expr) (rest : Str) (acc : List Node) :
    Out Error (Status × List Node) → Prop
  | .ok x => ∃ ns, x.2 = acc ++ ns ∧ Peg G e rest (.ok x.1.itParsing ns)
  | .err er =>
    (er.priority = .normal ∧ Peg G e rest .fail) ∨
    (er.priority = .critical ∧ ∃ pre r, text = pre ++ r ∧ CoordsOf pre er.pos ∧
      Peg G e rest (.crit er.descr r))
  | .panic => True
  | .diverge => True

theorem soundRes_raise_normal {G text e rest st d}
    (h : Peg G e rest .fail) : SoundRes G text e rest (raise st d .normal) := by
  cases hr : (raise st d .normal : Out Error (Status × List Node)) with
  | ok x => exact absurd hr raise_ok
  | err er => exact Or.inl ⟨(fromStatus_fields (raise_err hr)).2.2.1, h⟩
  | panic => trivial
  | diverge => trivial

theorem soundRes_raise_critical {G text e st d} (hI : Inv text st)
    (h : Peg G e st.itParsing (.crit d st.itParsing)) :
    SoundRes G text e st.itParsing (raise st d .critical) := by
  cases hr : (raise st d .critical : Out Error (Status × List Node)) with
  | ok x => exact absurd hr raise_ok
  | err er =>
    obtain ⟨hp, hd, hpr, _⟩ := fromStatus_fields (raise_err hr)
    obtain ⟨pre, hs, hc⟩ := hI.at_
    exact Or.inr ⟨hpr, pre, _, hs, by rw [hp]; exact hc, by rw [hd]; exact h⟩
  | panic => trivial
  | diverge => trivial

theorem getChar_error_nil {st st'} (h : getChar st = .error st') : st.itParsing = [] := by
  unfold getChar at h
  cases hi : st.itParsing with
  | nil => rfl
  | cons c r => rw [hi] at h; simp at h

/-- a one-node result as a list-of-nodes result -/
def asExpr : Out Error (Status × Node) → Out Error (Status × List Node)
  | .ok x => .ok (x.1, [x.2])
  | .err e => .err e
  | .panic => .panic
  | .diverge => .diverge

theorem asExpr_raise {st d p} : asExpr (raise st d p) = raise st d p := by
  unfold raise
  cases fromStatus st d p <;> rfl

theorem parseAtomAsExpr_eq (st a) : parseAtomAsExpr st a = asExpr (parseAtom st a) := by
  unfold parseAtomAsExpr
  cases parseAtom st a <;> rfl

theorem parseExpr_ruleName (R f st n) :
    parseExpr R (f + 1) st (.ruleName n) = asExpr (parseRuleName R f st n) := by
  rw [parseExpr]
  cases parseRuleName R f st n <;> rfl

theorem atom_sound {G text st} (hI : Inv text st) (a : Atom) :
    SoundRes G text (.simple a) st.itParsing (parseAtomAsExpr st a) := by
  rw [parseAtomAsExpr_eq]
  cases a with
  | literal l =>
    have := literalLoop_sound l l st
    simp only [parseAtom, parseLiteral]
    cases h : parseLiteralLoop l st l with
    | ok st' => rw [h] at this; simp only at this ⊢; rw [this]; exact .lit_ok _ _
    | err e => rw [h] at this; exact Or.inl ⟨this.1, .lit_fail _ _ this.2⟩
    | panic => trivial
    | diverge => trivial
  | error m =>
    simp only [parseAtom, parseError]
    rw [asExpr_raise]
    exact soundRes_raise_critical hI (.error _ _)
  | mtch cs rs =>
    simp only [parseAtom, parseMatch]
    cases hg : getChar st with
    | error st' =>
      simp only
      rw [asExpr_raise]
      rw [getChar_error_nil hg]
      exact soundRes_raise_normal (.class_end _ _)
    | ok x =>
      obtain ⟨st', c⟩ := x
      simp only
      have hc := (getChar_ok hg).1
      have hm := matchChar_iff cs rs c
      split
      · rename_i ht
        rw [hc]
        exact .class_ok _ _ _ _ (hm.1 ht)
      · rename_i ht
        rw [asExpr_raise, hc]
        exact soundRes_raise_normal (.class_fail _ _ _ _ (fun h => ht (hm.2 h)))
  | dot =>
    simp only [parseAtom, parseDot]
    cases hg : getChar st with
    | error st' =>
      simp only
      rw [asExpr_raise, getChar_error_nil hg]
      exact soundRes_raise_normal .dot_end
    | ok x =>
      simp only
      rw [(getChar_ok hg).1]
      exact .dot_ok _ _
  | eof =>
    simp only [parseAtom, parseEof]
    cases hg : getChar st with
    | error st' =>
      simp only
      rw [getChar_error hg]
      have := getChar_error_nil hg
      simp only [SoundRes, asExpr]
      rw [this]; exact .eof_ok
    | ok x =>
      simp only
      rw [asExpr_raise, (getChar_ok hg).1]
      exact soundRes_raise_normal (.eof_fail _ _)

theorem getBounds {R : SetOfRules} (hB : RulesBoundsOK R) {n e} (h : R.get n = some e) :
    BoundsOK e := by
  unfold SetOfRules.get at h
  obtain ⟨l1, l2, heq, _⟩ := List.lookup_eq_some_iff.mp h
  exact hB (n, e) (by rw [heq]; simp)

theorem inv_after {R text f st e x} (hI : Inv text st) (h : parseExpr R f st e = .ok x) :
    Inv text x.1 := by
  have H : Preserved R (fun _ => True) (Inv text) (fun _ => True) True :=
    { get := fun h hg => inv_get h hg
      push := fun h _ _ => ⟨h.text, h.at_⟩
      pot := fun h _ _ => ⟨h.text, h.at_⟩
      err := fun _ _ _ => trivial
      pan := fun _ _ _ => trivial }
  have := (preserve H (fun _ _ _ _ _ => trivial) f).2.1 st e hI (fun _ _ => trivial)
  rw [h] at this; exact this

/-- Soundness of all the parsing functions. -/
theorem sound (R : SetOfRules) (hB : RulesBoundsOK R) (text : Str) : ∀ f,
    (∀ st n, Inv text st → SoundRes (grammar R) text (.ruleName n) st.itParsing
      (asExpr (parseRuleName R f st n))) ∧
    (∀ st e, Inv text st → BoundsOK e →
      SoundRes (grammar R) text e st.itParsing (parseExpr R f st e)) ∧
    (∀ st es acc, Inv text st → (∀ e ∈ es, BoundsOK e) →
      SoundResAcc (grammar R) text (.and es) st.itParsing acc (parseAnd R f st es acc)) ∧
    (∀ st es acc, Inv text st → (∀ e ∈ es, BoundsOK e) →
      (∀ e, acc = some e → e.priority = .normal) →
      SoundRes (grammar R) text (.or es) st.itParsing (parseOr R f st es acc)) ∧
    (∀ e mn mx st k acc, Inv text st → BoundsOK e → (∀ m, mx = some m → k < m ∧ mn ≤ m) →
      SoundResAcc (grammar R) text (.rep e (mn - k) (mx.map (· - k))) st.itParsing acc
        (parseRepeat R f e mn mx st k acc)) := by
  intro f
  induction f with
  | zero =>
    refine ⟨?_, ?_, ?_, ?_, ?_⟩ <;> intros
    · simp [parseRuleName, asExpr, SoundRes]
    · simp [parseExpr, SoundRes]
    · simp [parseAnd, SoundResAcc]
    · simp [parseOr, SoundRes]
    · simp [parseRepeat, SoundResAcc]
  | succ f ih =>
    obtain ⟨ih1, ih2, ih3, ih4, ih5⟩ := ih
    refine ⟨?_, ?_, ?_, ?_, ?_⟩
    · intro st n hI
      rw [parseRuleName]
      generalize hst : (if st.traceRules = true then st.pushRule (c!"r:" ++ n) else st) = st1
      have hi1 : st1.itParsing = st.itParsing := by
        rw [← hst]; split <;> rfl
      have hI1 : Inv text st1 := by
        rw [← hst]; split
        · exact ⟨hI.text, hI.at_⟩
        · exact hI
      rw [← hi1]
      cases hg : R.get n with
      | none =>
        simp only
        rw [asExpr_raise]
        exact soundRes_raise_critical hI1 (.call_missing hg)
      | some e =>
        have := ih2 st1 e hI1 (getBounds hB hg)
        simp only
        cases h : parseExpr R f st1 e with
        | ok x => rw [h] at this; exact .call_ok hg this
        | err er =>
          rw [h] at this
          rcases this with ⟨h1, h2⟩ | ⟨h1, pre, r, h2, h3, h4⟩
          · exact Or.inl ⟨h1, .call_fail hg h2⟩
          · exact Or.inr ⟨h1, pre, r, h2, h3, .call_crit hg h4⟩
        | panic => trivial
        | diverge => trivial
    · intro st e hI hb
      cases hb with
      | simple a => rw [parseExpr]; exact atom_sound hI a
      | @and es hes =>
        rw [parseExpr]
        have := ih3 st es [] hI hes
        cases h : parseAnd R f st es [] with
        | ok x =>
          rw [h] at this
          obtain ⟨ns, h1, h2⟩ := this
          simp only [List.nil_append] at h1
          simp only [SoundRes]; rw [h1]; exact h2
        | err e => rw [h] at this; exact this
        | panic => trivial
        | diverge => trivial
      | or hes => rw [parseExpr]; exact ih4 st _ none hI hes (by simp)
      | @not e hb =>
        rw [parseExpr]
        have := ih2 st e hI hb
        cases h : parseExpr R f st e with
        | ok x => rw [h] at this; exact soundRes_raise_normal (.not_ok this)
        | err er =>
          rw [h] at this
          rcases this with ⟨_, h2⟩ | ⟨_, _, _, _, _, h4⟩
          · exact .not_fail h2
          · exact .not_crit h4
        | panic => trivial
        | diverge => trivial
      | @rep e mn mx hb hm =>
        rw [parseExpr]
        have := ih5 e mn mx st 0 [] hI hb (fun m h => ⟨(hm m h).1, (hm m h).2⟩)
        have hmap : mx.map (· - 0) = mx := by cases mx <;> rfl
        rw [hmap] at this
        cases h : parseRepeat R f e mn mx st 0 [] with
        | ok x =>
          rw [h] at this
          obtain ⟨ns, h1, h2⟩ := this
          simp only [List.nil_append] at h1
          simp only [SoundRes]; rw [h1]; exact h2
        | err e => rw [h] at this; exact this
        | panic => trivial
        | diverge => trivial
      | ruleName n => rw [parseExpr_ruleName]; exact ih1 st n hI
    · intro st es acc hI hb
      cases es with
      | nil => rw [parseAnd]; exact ⟨[], by simp, .and_nil _⟩
      | cons e es =>
        rw [parseAnd]
        have h1 := ih2 st e hI (hb e (by simp))
        cases h : parseExpr R f st e with
        | ok x =>
          rw [h] at h1
          obtain ⟨st', vn⟩ := x
          have h2 := ih3 st' es (acc ++ vn) (inv_after hI h) (fun e he => hb e (by simp [he]))
          simp only
          cases h3 : parseAnd R f st' es (acc ++ vn) with
          | ok y =>
            rw [h3] at h2
            obtain ⟨ns, h4, h5⟩ := h2
            exact ⟨vn ++ ns, by rw [h4]; simp, .and_ok h1 h5⟩
          | err er =>
            rw [h3] at h2
            rcases h2 with ⟨h5, h6⟩ | ⟨h5, pre, r, h6, h7, h8⟩
            · exact Or.inl ⟨h5, .and_tail_fail h1 h6⟩
            · exact Or.inr ⟨h5, pre, r, h6, h7, .and_tail_crit h1 h8⟩
          | panic => trivial
          | diverge => trivial
        | err er =>
          rw [h] at h1
          rcases h1 with ⟨h5, h6⟩ | ⟨h5, pre, r, h6, h7, h8⟩
          · exact Or.inl ⟨h5, .and_fail h6⟩
          · exact Or.inr ⟨h5, pre, r, h6, h7, .and_crit h8⟩
        | panic => trivial
        | diverge => trivial
    · intro st es acc hI hb hacc
      cases es with
      | nil =>
        cases acc with
        | none => rw [parseOr]; exact soundRes_raise_normal (.or_nil _)
        | some e => rw [parseOr]; exact Or.inl ⟨hacc e rfl, .or_nil _⟩
      | cons e es =>
        rw [parseOr]
        have h1 := ih2 st e hI (hb e (by simp))
        cases h : parseExpr R f st e with
        | ok x => rw [h] at h1; exact .or_ok h1
        | err er =>
          rw [h] at h1
          simp only
          split
          · rename_i hcr
            rcases h1 with ⟨h5, h6⟩ | ⟨h5, pre, r, h6, h7, h8⟩
            · rw [h5] at hcr; cases hcr
            · exact Or.inr ⟨h5, pre, r, h6, h7, .or_crit h8⟩
          · rename_i hcr
            rcases h1 with ⟨h5, h6⟩ | ⟨h5, pre, r, h6, h7, h8⟩
            · have hacc' : ∀ e, deepErr acc er = some e → e.priority = .normal := by
                intro e' he'
                rcases deepErr_cases acc er with hd | ⟨a, ha, hd⟩
                · rw [hd] at he'; cases he'; exact h5
                · rw [hd] at he'; cases he'; exact hacc _ ha
              have h2 := ih4 st es (deepErr acc er) hI (fun e he => hb e (by simp [he])) hacc'
              cases h3 : parseOr R f st es (deepErr acc er) with
              | ok y => rw [h3] at h2; exact .or_next h6 h2
              | err er' =>
                rw [h3] at h2
                rcases h2 with ⟨h5, h6'⟩ | ⟨h5, pre, r, h6', h7, h8⟩
                · exact Or.inl ⟨h5, .or_next h6 h6'⟩
                · exact Or.inr ⟨h5, pre, r, h6', h7, .or_next h6 h8⟩
              | panic => trivial
              | diverge => trivial
            · exact absurd h5 hcr
        | panic => trivial
        | diverge => trivial
    · intro e mn mx st k acc hI hb hm
      rw [parseRepeat]
      have h1 := ih2 st e hI hb
      have hne : mx.map (· - k) ≠ some 0 := by
        cases mx with
        | none => simp
        | some m => have := (hm m rfl).1; simp; omega
      have hmm : (mx.map (· - k)).map (· - 1) = mx.map (· - (k + 1)) := by
        cases mx with
        | none => rfl
        | some m => simp; omega
      have hmn : mn - k - 1 = mn - (k + 1) := by omega
      cases h : parseExpr R f st e with
      | ok x =>
        obtain ⟨st', vn⟩ := x
        rw [h] at h1
        simp only
        split
        · rename_i ht
          cases mx with
          | none => simp [touchMaxBound] at ht
          | some m =>
            have hk : k + 1 = m := by simpa [touchMaxBound] using ht
            refine ⟨vn ++ [], by simp, .rep_more hne h1 ?_⟩
            have : (Option.map (· - 1) (Option.map (· - k) (some m))) = some 0 := by simp; omega
            rw [this]
            exact .rep_full _ _ _
        · rename_i ht
          have hm' : ∀ m, mx = some m → k + 1 < m ∧ mn ≤ m := by
            intro m hmx
            have := hm m hmx
            refine ⟨?_, this.2⟩
            subst hmx
            have : k + 1 ≠ m := by simpa [touchMaxBound] using ht
            omega
          have h2 := ih5 e mn mx st' (k + 1) (acc ++ vn) (inv_after hI h) hb hm'
          rw [← hmm, ← hmn] at h2
          cases h3 : parseRepeat R f e mn mx st' (k + 1) (acc ++ vn) with
          | ok y =>
            rw [h3] at h2
            obtain ⟨ns, h4, h5⟩ := h2
            exact ⟨vn ++ ns, by rw [h4]; simp, .rep_more hne h1 h5⟩
          | err er =>
            rw [h3] at h2
            rcases h2 with ⟨h5, h6⟩ | ⟨h5, pre, r, h6, h7, h8⟩
            · exact Or.inl ⟨h5, .rep_more_fail hne h1 h6⟩
            · exact Or.inr ⟨h5, pre, r, h6, h7, .rep_more_crit hne h1 h8⟩
          | panic => trivial
          | diverge => trivial
      | err er =>
        rw [h] at h1
        simp only
        split
        · rename_i hbig
          have hk : mn - k = 0 := by
            have : mn ≤ k := by simpa [bigMinBound] using hbig
            omega
          split
          · rename_i hcr
            rcases h1 with ⟨h5, h6⟩ | ⟨h5, pre, r, h6, h7, h8⟩
            · rw [h5] at hcr; cases hcr
            · exact Or.inr ⟨h5, pre, r, h6, h7, .rep_crit hne h8⟩
          · rename_i hcr
            rcases h1 with ⟨h5, h6⟩ | ⟨h5, _⟩
            · refine ⟨[], by simp, ?_⟩
              rw [hk]; exact .rep_stop hne h6
            · exact absurd h5 hcr
        · rename_i hbig
          have hk : 0 < mn - k := by
            have : ¬ mn ≤ k := by simpa [bigMinBound] using hbig
            omega
          rcases h1 with ⟨h5, h6⟩ | ⟨h5, pre, r, h6, h7, h8⟩
          · exact Or.inl ⟨h5, .rep_few hne hk h6⟩
          · exact Or.inr ⟨h5, pre, r, h6, h7, .rep_crit hne h8⟩
      | panic => trivial
      | diverge => trivial

end DP
