/-
C104: how many nodes there are at the same time (src/parser/expression/mod.rs:179-327).
-/
import Verif.Model.Held
import Verif.Props.TreeSize
import Verif.Props.Returns
import Verif.Props.Calls

namespace DP
open Spec

mutual
theorem nodesIn_eq : ∀ t, nodesIn t = treeSize t
  | .val _ => rfl
  | .eof => rfl
  | .rule _ ns => by rw [nodesIn, treeSize, nodesInAll_eq ns, Nat.add_comm]
theorem nodesInAll_eq : ∀ ns, nodesInAll ns = forestSize ns
  | [] => rfl
  | n :: ns => by rw [nodesInAll, forestSize, nodesIn_eq n, nodesInAll_eq ns]
end

/-- nodes of a match: few if nothing is consumed, otherwise at most proportional to what is consumed -/
def Modest (G : Str → Option Expr) (W A : Nat) : Prop :=
  ∀ e u r ns, esize e ≤ W → Peg G e u (.ok r ns) →
    (r.length = u.length → forestSize ns ≤ A) ∧ (r.length < u.length → forestSize ns ≤ A * (u.length - r.length))

theorem modest_rules (R : SetOfRules) : ∃ W A, (∀ n e, R.get n = some e → esize (effective e) ≤ W) ∧ 1 ≤ W ∧ 1 ≤ A ∧ Modest (denotes R) W A := by
  obtain ⟨W, hW⟩ := rules_bound (fun e => esize (effective e)) R
  generalize ht : (W + 1) * (R.entries.map Prod.fst).length + (W + 1) = top
  refine ⟨W + 1, 2 ^ top * 4 ^ top, fun n e h => (hW n e h).trans (by omega), by omega, Nat.mul_pos (Nat.pow_pos (by omega)) (Nat.pow_pos (by omega)), ?_⟩
  intro e u r ns he hp
  have h1 := size_le (G := denotes R) (l := R.entries.map Prod.fst) (W := W + 1) (fun n e hg => mem_keys hg)
    (fun n e hg => by
      obtain ⟨e', h1, rfl⟩ := Option.map_eq_some_iff.1 hg
      exact Nat.succ_le_succ (hW n e' h1)) ht.symm rfl rfl hp _ _ rfl he [] List.nodup_nil (by simp) avoids_nil
  have ha : (W + 1) * ((R.entries.map Prod.fst).length - ([] : List Str).length) + esize e ≤ top := by
    simp only [List.length_nil, Nat.sub_zero]
    omega
  have h2 := cheap_le h1 ha
  have hl := ok_length hp
  refine ⟨fun h => ?_, fun h => ?_⟩
  · have h3 := h2.1 (by omega)
    have h4 : 2 ^ top * 1 ≤ 2 ^ top * 4 ^ top := Nat.mul_le_mul_left _ (Nat.pow_pos (by omega))
    omega
  · have h3 := h2.2 (by omega)
    obtain ⟨m, hm⟩ : ∃ m, u.length - r.length = m + 1 := ⟨u.length - r.length - 1, by omega⟩
    rw [hm] at h3 ⊢
    rw [Nat.mul_add]
    simp only [Nat.add_sub_cancel] at h3
    omega

theorem length_le_esizes : ∀ es : List Expr, es.length ≤ esizes es
  | [] => by simp
  | e :: es => by have := length_le_esizes es; rw [esizes, List.length_cons]; omega

theorem effectives_length : ∀ es : List Expr, (effectives es).length = es.length
  | [] => by rw [effectives]
  | e :: es => by rw [effectives, List.length_cons, List.length_cons, effectives_length es]

theorem held_le {R : SetOfRules} {W A C : Nat} (hW : ∀ n e, R.get n = some e → esize (effective e) ≤ W) (hA1 : 1 ≤ A) (hA : Modest (denotes R) W A)
    (hC : A * W + A + 1 ≤ C) (text : Str) : ∀ f,
    (∀ st n, Inv text st → Done (meterRuleName R f st n).1 →
      heldRuleName R f st n ≤ A * st.itParsing.length + C * ((meterRuleName R f st n).2.depth + 1)) ∧
    (∀ st e, Inv text st → Done (meterExpr R f st e).1 → esize (effective e) ≤ W →
      heldExpr R f st e ≤ A * st.itParsing.length + C * (meterExpr R f st e).2.depth) ∧
    (∀ st es acc, Inv text st → Done (meterAnd R f st es acc).1 → esizes (effectives es) ≤ W →
      heldAnd R f st es acc ≤ forestSize acc + A * st.itParsing.length + A * es.length + C * (meterAnd R f st es acc).2.depth) ∧
    (∀ st es acc, Inv text st → Done (meterOr R f st es acc).1 → esizes (effectives es) ≤ W →
      heldOr R f st es ≤ A * st.itParsing.length + C * (meterOr R f st es acc).2.depth) ∧
    (∀ e mn mx st k acc, Inv text st → (∀ m, mx = some (m + 1) → k < m + 1) → Done (meterRepeat R f e mn mx st k acc).1 → esize (effective e) ≤ W →
      heldRepeat R f e mn mx st k acc ≤ forestSize acc + A * st.itParsing.length + A * (roundsLeft mx k).getD 0 +
        C * (meterRepeat R f e mn mx st k acc).2.depth) := by
  have cost : ∀ {e u r ns}, esize e ≤ W → Peg (denotes R) e u (.ok r ns) → forestSize ns + A * r.length ≤ A * u.length + A := by
    intro e u r ns he hp
    obtain ⟨h1, h2⟩ := hA e u r ns he hp
    have hl := ok_length hp
    rcases Nat.lt_or_ge r.length u.length with hlt | hge
    · have := h2 hlt
      have h3 : A * (u.length - r.length) + A * r.length = A * u.length := by rw [← Nat.mul_add]; congr 1; omega
      omega
    · have := h1 (by omega)
      have := Nat.mul_le_mul_left A hl
      omega
  intro f
  induction f with
  | zero =>
    refine ⟨?_, ?_, ?_, ?_, ?_⟩ <;> intros
    · rw [heldRuleName]; exact Nat.zero_le _
    · rw [heldExpr]; exact Nat.zero_le _
    · rw [heldAnd]; exact Nat.zero_le _
    · rw [heldOr]; exact Nat.zero_le _
    · rw [heldRepeat]; exact Nat.zero_le _
  | succ f ih =>
    obtain ⟨ih1, ih2, ih3, ih4, ih5⟩ := ih
    have er := (meter_erase R f).2.1
    refine ⟨?_, ?_, ?_, ?_, ?_⟩
    · intro st n hI hd
      have hI' : Inv text (if st.traceRules then st.pushRule (c!"r:" ++ n) else st) := by
        split
        · exact ⟨hI.text, hI.at_⟩
        · exact hI
      have hit : (if st.traceRules then st.pushRule (c!"r:" ++ n) else st).itParsing = st.itParsing := by split <;> rfl
      rw [meterRuleName] at hd ⊢
      rw [heldRuleName]
      generalize (if st.traceRules then st.pushRule (c!"r:" ++ n) else st) = st' at *
      cases hg : R.get n with
      | none => exact Nat.zero_le _
      | some e =>
        rw [hg] at hd
        have h1 := ih2 st' e hI'
        have h2 := peg_of_sound (f := f) (e := e) hI' (er st' e).symm
        have hw := hW n e hg
        rw [hit] at h1 h2
        simp only at hd ⊢
        rw [← er]
        revert h1 h2 hd
        rcases meterExpr R f st' e with ⟨⟨s', v⟩ | x | _ | _, m⟩
        · intro hd h1 h2
          have h1 := h1 ⟨by simp, by simp⟩ hw
          have h3 := cost hw h2
          simp only at h3
          simp only [nodesIn_eq, treeSize]
          simp only [Nat.mul_add, Nat.mul_one] at h1 ⊢
          refine Nat.max_le.2 ⟨by omega, ?_⟩
          have := Nat.zero_le (C * m.depth)
          omega
        · intro hd h1 h2
          have h1 := h1 ⟨by simp, by simp⟩ hw
          simp only [Nat.mul_add, Nat.mul_one] at h1 ⊢
          exact Nat.max_le.2 ⟨by omega, Nat.zero_le _⟩
        · intro hd; exact absurd rfl hd.2
        · intro hd; exact absurd rfl hd.1
    · intro st e hI hd hw
      cases e with
      | simple a =>
        have h1 : heldExpr R (f + 1) st (.simple a) ≤ 1 := by
          rw [heldExpr]
          split
          · rename_i hx
            cases a with
            | literal l => rw [parseAtom, parseLiteral] at hx; split at hx <;> cases hx; exact Nat.le_refl _
            | error l => rw [parseAtom, parseError] at hx; exact absurd hx raise_ok
            | mtch cs rs =>
              rw [parseAtom, parseMatch] at hx
              split at hx
              · split at hx
                · cases hx; exact Nat.le_refl _
                · exact absurd hx raise_ok
              · exact absurd hx raise_ok
            | dot =>
              rw [parseAtom, parseDot] at hx
              split at hx
              · cases hx; exact Nat.le_refl _
              · exact absurd hx raise_ok
            | eof =>
              rw [parseAtom, parseEof] at hx
              split at hx
              · exact absurd hx raise_ok
              · cases hx; exact Nat.le_refl _
          · omega
        rw [meterExpr]
        simp only [Meter.enter, Meter.zero, Nat.zero_add, Nat.mul_one]
        omega
      | and es =>
        rw [effective, esize] at hw
        rw [meterExpr] at hd ⊢
        have h1 := ih3 st es [] hI hd (by omega)
        have h2 := length_le_esizes (effectives es)
        rw [effectives_length] at h2
        have h3 := Nat.mul_le_mul_left A (show es.length ≤ W by omega)
        rw [heldExpr]
        simp only [Meter.enter, Nat.mul_add, Nat.mul_one, forestSize] at h1 ⊢
        omega
      | or es =>
        rw [effective, esize] at hw
        rw [meterExpr] at hd ⊢
        have h1 := ih4 st es none hI hd (by omega)
        rw [heldExpr]
        simp only [Meter.enter, Nat.mul_add, Nat.mul_one] at h1 ⊢
        omega
      | not e =>
        rw [effective, esize] at hw
        rw [meterExpr] at hd ⊢
        rw [heldExpr]
        have h1 := ih2 st e hI
        revert h1 hd
        rcases meterExpr R f st e with ⟨x | x | _ | _, m⟩
        · intro hd h1
          have := h1 ⟨by simp, by simp⟩ (by omega)
          simp only [Meter.enter, Nat.mul_add, Nat.mul_one] at this ⊢
          omega
        · intro hd h1
          have := h1 ⟨by simp, by simp⟩ (by omega)
          simp only [Meter.enter, Nat.mul_add, Nat.mul_one] at this ⊢
          omega
        · intro hd; exact absurd rfl hd.2
        · intro hd; exact absurd rfl hd.1
      | rep e mn mx =>
        obtain ⟨mn', h⟩ := effective_rep e mn mx
        rw [h, esize] at hw
        rw [meterExpr] at hd ⊢
        have h1 := ih5 e mn mx st 0 [] hI (by omega) hd (by omega)
        have h3 := Nat.mul_le_mul_left A (show (roundsLeft mx 0).getD 0 ≤ W by omega)
        rw [heldExpr]
        simp only [Meter.enter, Nat.mul_add, Nat.mul_one, forestSize] at h1 ⊢
        omega
      | ruleName n =>
        rw [meterExpr] at hd ⊢
        rw [heldExpr]
        have h1 := ih1 st n hI
        revert h1 hd
        rcases meterRuleName R f st n with ⟨x | x | _ | _, m⟩
        · intro _ h1; exact h1 ⟨by simp, by simp⟩
        · intro _ h1; exact h1 ⟨by simp, by simp⟩
        · intro hd; exact absurd rfl hd.2
        · intro hd; exact absurd rfl hd.1
    · intro st es acc hI hd hw
      cases es with
      | nil => rw [heldAnd, nodesInAll_eq]; omega
      | cons e es =>
        rw [effectives, esizes] at hw
        rw [meterAnd] at hd ⊢
        rw [heldAnd, nodesInAll_eq]
        have h1 := ih2 st e hI
        have h2 := peg_of_sound (f := f) (e := e) hI (er st e).symm
        have h3 := fun x (h : (meterExpr R f st e).1 = .ok x) => inv_after hI ((er st e).symm.trans h)
        rw [← er]
        revert h1 h2 h3 hd
        rcases meterExpr R f st e with ⟨⟨s', v⟩ | x | _ | _, m⟩
        · intro hd h1 h2 h3
          have h1 := h1 ⟨by simp, by simp⟩ (by omega)
          have h4 := ih3 s' es (acc ++ v) (h3 _ rfl) hd (by omega)
          have h5 := cost (by omega) h2
          rw [forestSize_append] at h4
          simp only [List.length_cons, Nat.mul_add, Nat.mul_one, Meter.andThen] at h1 h4 h5 ⊢
          have h6 := Nat.mul_le_mul_left C (Nat.le_max_left m.depth (meterAnd R f s' es (acc ++ v)).2.depth)
          have h7 := Nat.mul_le_mul_left C (Nat.le_max_right m.depth (meterAnd R f s' es (acc ++ v)).2.depth)
          refine Nat.max_le.2 ⟨?_, ?_⟩ <;> omega
        · intro hd h1 h2 h3
          have h1 := h1 ⟨by simp, by simp⟩ (by omega)
          simp only [List.length_cons, Nat.mul_add, Nat.mul_one] at h1 ⊢
          refine Nat.max_le.2 ⟨?_, ?_⟩ <;> omega
        · intro hd; exact absurd rfl hd.2
        · intro hd; exact absurd rfl hd.1
    · intro st es acc hI hd hw
      cases es with
      | nil => rw [heldOr]; exact Nat.zero_le _
      | cons e es =>
        rw [effectives, esizes] at hw
        rw [meterOr] at hd ⊢
        rw [heldOr]
        have h1 := ih2 st e hI
        rw [← er]
        revert h1 hd
        rcases meterExpr R f st e with ⟨⟨s', v⟩ | x | _ | _, m⟩
        · intro hd h1
          have h1 := h1 ⟨by simp, by simp⟩ (by omega)
          simp only at h1 ⊢
          refine Nat.max_le.2 ⟨?_, ?_⟩ <;> omega
        · intro hd h1
          have h1 := h1 ⟨by simp, by simp⟩ (by omega)
          simp only at h1 hd ⊢
          by_cases hc : x.priority = .critical
          · rw [if_pos hc, if_pos hc]
            simp only
            refine Nat.max_le.2 ⟨?_, ?_⟩ <;> omega
          · rw [if_neg hc] at hd
            rw [if_neg hc, if_neg hc]
            have h4 := ih4 st es (deepErr acc x) hI hd (by omega)
            simp only [Meter.andThen]
            have h6 := Nat.mul_le_mul_left C (Nat.le_max_left m.depth (meterOr R f st es (deepErr acc x)).2.depth)
            have h7 := Nat.mul_le_mul_left C (Nat.le_max_right m.depth (meterOr R f st es (deepErr acc x)).2.depth)
            refine Nat.max_le.2 ⟨?_, ?_⟩ <;> omega
        · intro hd; exact absurd rfl hd.2
        · intro hd; exact absurd rfl hd.1
    · intro e mn mx st k acc hI hk hd hw
      have idle : ∀ ns, Peg (denotes R) (effective e) st.itParsing (.ok st.itParsing ns) → roundsLeft mx k ≠ none := by
        intro ns hp hn
        have h1 := (meter_effort (R := R) text (f + 1)).2.2.2.2 e mn mx st k acc hI hk hd
        rw [hn] at h1
        obtain ⟨o, ho⟩ := effort_ends (Effort.rep (mn := 0) h1)
        exact no_idle hp ho
      have h0 := roundsLeft_ne hk
      rw [meterRepeat] at hd ⊢
      rw [heldRepeat, nodesInAll_eq]
      have h1 := ih2 st e hI
      have h2 := peg_of_sound (f := f) (e := e) hI (er st e).symm
      have h3 := fun x (h : (meterExpr R f st e).1 = .ok x) => inv_after hI ((er st e).symm.trans h)
      rw [← er]
      revert h1 h2 h3 hd
      rcases meterExpr R f st e with ⟨⟨s', v⟩ | x | _ | _, m⟩
      · intro hd h1 h2 h3
        have h1 := h1 ⟨by simp, by simp⟩ hw
        -- a round is paid by what it consumes, or by the rounds left
        have h5 : forestSize v + A * s'.itParsing.length + A * ((roundsLeft mx k).map (· - 1)).getD 0 ≤
            A * st.itParsing.length + A * (roundsLeft mx k).getD 0 := by
          have hl := ok_length h2
          obtain ⟨g1, g2⟩ := hA _ _ _ _ hw h2
          simp only at hl g1 g2
          rcases Nat.lt_or_ge s'.itParsing.length st.itParsing.length with hlt | hge
          · have h3 : A * (st.itParsing.length - s'.itParsing.length) + A * s'.itParsing.length = A * st.itParsing.length := by
              rw [← Nat.mul_add]; congr 1; omega
            have h4 : ((roundsLeft mx k).map (· - 1)).getD 0 ≤ (roundsLeft mx k).getD 0 := by cases roundsLeft mx k <;> simp
            have := Nat.mul_le_mul_left A h4
            have := g2 hlt
            omega
          · have hs : s'.itParsing = st.itParsing := (peg_suffix h2 rfl).eq_of_length (Nat.le_antisymm hl hge)
            have hne := idle v (by have := h2; simp only [PegRes] at this; rwa [hs] at this)
            obtain ⟨j, hj⟩ : ∃ j, roundsLeft mx k = some (j + 1) := by
              cases hr : roundsLeft mx k with
              | none => exact absurd hr hne
              | some j =>
                cases j with
                | zero => exact absurd hr h0
                | succ j => exact ⟨j, rfl⟩
            have := g1 (by rw [hs])
            rw [hj, hs]
            simp only [Option.map_some, Option.getD_some, Nat.add_sub_cancel, Nat.mul_add, Nat.mul_one]
            omega
        simp only at hd ⊢
        cases ht : touchMaxBound mx k with
        | true =>
          simp only [if_true, nodesInAll_eq, forestSize_append]
          simp only at h1
          refine Nat.max_le.2 ⟨?_, ?_⟩ <;> omega
        | false =>
          rw [ht] at hd
          simp only [Bool.false_eq_true, if_false] at hd ⊢
          obtain ⟨h6, h7⟩ := roundsLeft_next ht hk
          rw [h6] at h5
          have h4 := ih5 e mn mx s' (k + 1) (acc ++ v) (h3 _ rfl) h7 hd hw
          rw [forestSize_append] at h4
          simp only [Meter.andThen] at h1 ⊢
          have h6 := Nat.mul_le_mul_left C (Nat.le_max_left m.depth (meterRepeat R f e mn mx s' (k + 1) (acc ++ v)).2.depth)
          have h7 := Nat.mul_le_mul_left C (Nat.le_max_right m.depth (meterRepeat R f e mn mx s' (k + 1) (acc ++ v)).2.depth)
          refine Nat.max_le.2 ⟨?_, ?_⟩ <;> omega
      · intro hd h1 h2 h3
        have h1 := h1 ⟨by simp, by simp⟩ hw
        have hm : (if bigMinBound mn k then if x.priority = .critical then (.err x, m) else (.ok (st.setPotentialError x, acc), m) else (.err x, m) :
            Out Error (Status × List Node) × Meter).2 = m := by
          split
          · split <;> rfl
          · rfl
        simp only at h1 ⊢
        rw [hm]
        refine Nat.max_le.2 ⟨?_, ?_⟩ <;> omega
      · intro hd; exact absurd rfl hd.2
      · intro hd; exact absurd rfl hd.1

/-- what is returned was there -/
theorem held_ge (R : SetOfRules) (f : Nat) (st : Status) (n : Str) (x) (h : parseRuleName R f st n = .ok x) : treeSize x.2 ≤ heldRuleName R f st n := by
  cases f with
  | zero => rw [parseRuleName] at h; cases h
  | succ f =>
    rw [parseRuleName] at h
    rw [heldRuleName]
    cases hg : R.get n with
    | none => rw [hg] at h; exact absurd h raise_ok
    | some e =>
      rw [hg] at h
      simp only at h ⊢
      cases hx : parseExpr R f (if st.traceRules then st.pushRule (c!"r:" ++ n) else st) e with
      | ok y =>
        rw [hx] at h
        cases h
        simp only [nodesIn_eq]
        exact Nat.le_max_right _ _
      | _ => rw [hx] at h; cases h


/-- One more unit of fuel does not change what is held by a finished run. -/
theorem held_step (R : SetOfRules) : ∀ f,
    (∀ st n, parseRuleName R f st n ≠ .diverge → heldRuleName R (f + 1) st n = heldRuleName R f st n) ∧
    (∀ st e, parseExpr R f st e ≠ .diverge → heldExpr R (f + 1) st e = heldExpr R f st e) ∧
    (∀ st es acc, parseAnd R f st es acc ≠ .diverge → heldAnd R (f + 1) st es acc = heldAnd R f st es acc) ∧
    (∀ st es acc, parseOr R f st es acc ≠ .diverge → heldOr R (f + 1) st es = heldOr R f st es) ∧
    (∀ e mn mx st k acc, parseRepeat R f e mn mx st k acc ≠ .diverge → heldRepeat R (f + 1) e mn mx st k acc = heldRepeat R f e mn mx st k acc) := by
  intro f
  induction f with
  | zero =>
    refine ⟨?_, ?_, ?_, ?_, ?_⟩ <;> intros <;> rename_i h <;> exfalso <;> apply h
    · rw [parseRuleName]
    · rw [parseExpr]
    · rw [parseAnd]
    · rw [parseOr]
    · rw [parseRepeat]
  | succ f ih =>
    obtain ⟨ih1, ih2, ih3, ih4, ih5⟩ := ih
    have fs : ∀ st e, parseExpr R f st e ≠ .diverge → parseExpr R (f + 1) st e = parseExpr R f st e := fun st e h =>
      parseExpr_mono (Nat.le_succ f) rfl h
    refine ⟨?_, ?_, ?_, ?_, ?_⟩
    · intro st n h
      rw [heldRuleName, heldRuleName]
      rw [parseRuleName] at h
      cases hg : R.get n with
      | none => rfl
      | some e =>
        rw [hg] at h
        simp only at h ⊢
        have hd : parseExpr R f (if st.traceRules then st.pushRule (c!"r:" ++ n) else st) e ≠ .diverge := fun hd => h (by rw [hd])
        rw [ih2 _ _ hd, fs _ _ hd]
    · intro st e h
      cases e with
      | simple a => rw [heldExpr, heldExpr]
      | and es => rw [heldExpr, heldExpr, ih3 st es [] (by rwa [parseExpr] at h)]
      | or es => rw [heldExpr, heldExpr, ih4 st es none (by rwa [parseExpr] at h)]
      | not e =>
        rw [heldExpr, heldExpr, ih2 st e (fun hd => h (by rw [parseExpr, hd]))]
      | rep e mn mx => rw [heldExpr, heldExpr, ih5 e mn mx st 0 [] (by rwa [parseExpr] at h)]
      | ruleName n =>
        rw [heldExpr, heldExpr, ih1 st n (fun hd => h (by rw [parseExpr, hd]))]
    · intro st es acc h
      cases es with
      | nil => rw [heldAnd, heldAnd]
      | cons e es =>
        have hd : parseExpr R f st e ≠ .diverge := fun hd => h (by rw [parseAnd, hd])
        rw [heldAnd, heldAnd, fs st e hd, ih2 st e hd]
        rw [parseAnd] at h
        cases hx : parseExpr R f st e with
        | ok x => rw [hx] at h; simp only at h ⊢; rw [ih3 _ _ _ h]
        | _ => rfl
    · intro st es acc h
      cases es with
      | nil => rw [heldOr, heldOr]
      | cons e es =>
        have hd : parseExpr R f st e ≠ .diverge := fun hd => h (by rw [parseOr, hd])
        rw [heldOr, heldOr, fs st e hd, ih2 st e hd]
        rw [parseOr] at h
        cases hx : parseExpr R f st e with
        | err x =>
          rw [hx] at h
          simp only at h ⊢
          split
          · rfl
          · rename_i hc
            rw [if_neg hc] at h
            rw [ih4 _ _ _ h]
        | _ => rfl
    · intro e mn mx st k acc h
      have hd : parseExpr R f st e ≠ .diverge := fun hd => h (by rw [parseRepeat, hd])
      rw [heldRepeat, heldRepeat, fs st e hd, ih2 st e hd]
      rw [parseRepeat] at h
      cases hx : parseExpr R f st e with
      | ok x =>
        rw [hx] at h
        simp only at h ⊢
        split
        · rfl
        · rename_i hc
          rw [if_neg hc] at h
          rw [ih5 _ _ _ _ _ _ h]
      | _ => rfl

theorem held_mono {R : SetOfRules} {f g : Nat} (h : f ≤ g) {st n} (hd : parseRuleName R f st n ≠ .diverge) :
    heldRuleName R g st n = heldRuleName R f st n := by
  obtain ⟨k, rfl⟩ := Nat.exists_eq_add_of_le h
  clear h
  induction k with
  | zero => rfl
  | succ k ih =>
    have := (held_step R (f + k)).1 st n (by rw [parseRuleName_mono (Nat.le_add_right f k) rfl hd]; exact hd)
    rw [Nat.add_succ, this, ih]

/-! ### The claims -/

/-- **C104**: the greatest number of nodes is determined by the text and the rules. -/
theorem C104_unique {s : Str} {R : SetOfRules} {h h'} (hh : Holds s R h) (hh' : Holds s R h') : h = h' := by
  obtain ⟨f, hd, rfl⟩ := hh
  obtain ⟨g, hd', rfl⟩ := hh'
  rcases Nat.le_total f g with hfg | hfg
  · exact (held_mono hfg hd).symm
  · exact held_mono hfg hd'

/-- **C104**: and defined whenever `parse` returns. -/
theorem C104_exists (s : Str) (R : SetOfRules) : parse s R ≠ .diverge ↔ ∃ h, Holds s R h := by
  rw [C102_exists]
  constructor
  · rintro ⟨l, f, hd, _⟩
    exact ⟨_, f, hd, rfl⟩
  · rintro ⟨w, f, hd, _⟩
    exact ⟨_, f, hd, rfl⟩

/-- **C104**: it is at most proportional to the length of the text, whatever the rules are. -/
theorem C104_linear (R : SetOfRules) : ∃ K, ∀ s h, Ascii s → Holds s R h → h ≤ K * (s.length + 1) := by
  obtain ⟨W, A, hW, _, hA1, hA⟩ := modest_rules R
  obtain ⟨H, hH⟩ := rules_bound height R
  refine ⟨A + (A * W + A + 1) * (R.entries.length * H + 1), ?_⟩
  rintro s h ha ⟨f, hd, rfl⟩
  have h1 := (held_le hW hA1 hA (Nat.le_refl _) s f).1 (.init s) c!"main" (inv_init s) (by
    rw [(meter_erase R f).1]
    exact ⟨hd, ne_panic_of_ascii ha hd⟩)
  have h2 : (meterRuleName R f (.init s) c!"main").2.depth ≤ (s.length + 1) * (R.entries.length * H) := C80_depth hH ha ⟨f, hd, rfl⟩
  have h3 : (meterRuleName R f (.init s) c!"main").2.depth + 1 ≤ (R.entries.length * H + 1) * (s.length + 1) := by
    rw [Nat.add_mul, Nat.one_mul, Nat.mul_comm (R.entries.length * H)]
    omega
  have h4 := Nat.mul_le_mul_left (A * W + A + 1) h3
  have h5 : A * (Status.init s).itParsing.length ≤ A * (s.length + 1) := Nat.mul_le_mul_left A (Nat.le_succ s.length)
  rw [Nat.add_mul, Nat.mul_assoc]
  omega

/-- **C104**: the tree returned is among them. -/
theorem C104_tree {s : Str} {R : SetOfRules} {t h} (ht : parse s R = .ok t) (hh : Holds s R h) : treeSize t ≤ h := by
  obtain ⟨f, hd, rfl⟩ := hh
  have hp : ∃ st, parseRuleName R f (.init s) c!"main" = .ok (st, t) := by
    have hr : runRule R (.init s) c!"main" = parseRuleName R f (.init s) c!"main" := limit_of (chain_rule R (Status.init s) c!"main") (n := f) rfl hd
    rw [parse_eq, hr] at ht
    cases hy : parseRuleName R f (.init s) c!"main" with
    | ok y =>
      rw [hy] at ht
      simp only at ht
      split at ht
      · cases ht; exact ⟨_, rfl⟩
      · split at ht
        · cases ht
        · exact absurd ht raise_ok
    | err e => rw [hy] at ht; cases ht
    | panic => rw [hy] at ht; cases ht
    | diverge => rw [hy] at ht; cases ht
  obtain ⟨st, hp⟩ := hp
  exact held_ge R f _ _ _ hp

/-- **C104**: also where `parse` makes exponentially many calls, and so moves nodes again and again. -/
theorem C104_exponential : ∃ K, ∀ n, ∃ m h, Uses (brackets n) exTwice m ∧ 2 ^ n ≤ m.calls ∧ Holds (brackets n) exTwice h ∧ h ≤ K * (n + 1) := by
  obtain ⟨K, hK⟩ := C104_linear exTwice
  refine ⟨2 * K, fun n => ?_⟩
  obtain ⟨⟨t, ht⟩, m, hm, hc⟩ := C53_exponential n
  obtain ⟨h, hh⟩ := (C104_exists (brackets n) exTwice).1 (by rw [ht]; simp)
  refine ⟨m, h, hm, hc, hh, ?_⟩
  have h1 := hK _ h ((parse_iff _ _ _).1 ht).1 hh
  have h2 : (brackets n).length = 2 * n + 1 := by simp [brackets]; omega
  rw [h2] at h1
  rw [Nat.mul_comm 2, Nat.mul_assoc]
  exact h1.trans (Nat.mul_le_mul_left K (by omega))

/-- **C104**: no factor is good for all rules: with `n` nested repetitions (C76) it is more than `2 ^ n` on the empty text. -/
theorem C104_factor (n : Nat) : ∃ h, Holds [] ⟨[(c!"main", twofold n)]⟩ h ∧ 2 ^ n < h := by
  obtain ⟨t, ht, hs⟩ := C76_factor n
  obtain ⟨h, hh⟩ := (C104_exists [] ⟨[(c!"main", twofold n)]⟩).1 (by rw [ht]; simp)
  have := C104_tree ht hh
  exact ⟨h, hh, by omega⟩

/-! ### Examples -/

/-- `'a' 'b' / 'a' 'c'` on `ac`: the root and two leaves -/
example : Holds c!"ac" acRules 3 := ⟨20, by decide +kernel, by decide +kernel⟩

/-- on `ad` nothing is returned, but there was a node -/
example : Holds c!"ad" acRules 1 := ⟨20, by decide +kernel, by decide +kernel⟩

example {t} (ht : parse c!"ac" acRules = .ok t) : treeSize t ≤ 3 := C104_tree ht ⟨20, by decide +kernel, by decide +kernel⟩

end DP
