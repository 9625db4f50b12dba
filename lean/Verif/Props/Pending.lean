/-
C104, continued: the greatest number of nodes at one moment is what the declarative semantics says.
-/
import Verif.Props.Held
import Verif.Spec.Pending

namespace DP
open Spec

variable {G : Str → Option Expr}

mutual
theorem nodesIn_count : ∀ t, nodesIn t = countTree t
  | .val _ => rfl
  | .eof => rfl
  | .rule _ ns => by rw [nodesIn, countTree, nodesInAll_count ns, Nat.add_comm]
theorem nodesInAll_count : ∀ ns, nodesInAll ns = countTrees ns
  | [] => rfl
  | n :: ns => by rw [nodesInAll, countTrees, nodesIn_count n, nodesInAll_count ns]
end

theorem countTrees_append : ∀ a b : List Node, countTrees (a ++ b) = countTrees a + countTrees b
  | [], b => by simp [countTrees]
  | n :: a, b => by rw [List.cons_append, countTrees, countTrees, countTrees_append a b, Nat.add_assoc]


theorem peak_zero {t s} (h : ∀ j, Pending G t s j → j = 0) : Peak G t s 0 := ⟨.start _ _, fun j hj => Nat.le_of_eq (h j hj)⟩

theorem peak_seq_nil (s) : Peak G (.seq []) s 0 := peak_zero fun j h => by cases h; rfl
theorem peak_alt_nil (s) : Peak G (.alt []) s 0 := peak_zero fun j h => by cases h; rfl
theorem peak_loop_full (e s) : Peak G (.loop e (some 0)) s 0 := peak_zero fun j h => by
  cases h with
  | start => rfl
  | loop_first h => exact absurd rfl h
  | loop_next h => exact absurd rfl h

theorem peak_seq_more {e es s r ns h p} (h1 : Peak G (.one e) s h) (hp : Peg G e s (.ok r ns)) (h2 : Peak G (.seq es) r p) :
    Peak G (.seq (e :: es)) s (max h (countTrees ns + p)) := by
  constructor
  · rcases Nat.le_total h (countTrees ns + p) with hl | hl
    · rw [Nat.max_eq_right hl]; exact .seq_next hp h2.1
    · rw [Nat.max_eq_left hl]; exact .seq_first h1.1
  · intro j hj
    cases hj with
    | start => exact Nat.zero_le _
    | seq_first hj => exact (h1.2 _ hj).trans (Nat.le_max_left _ _)
    | seq_next hp' hj =>
      cases peg_det hp hp'
      have := h2.2 _ hj
      exact Nat.le_trans (by omega) (Nat.le_max_right _ _)

theorem peak_seq_stop {e es s o h} (h1 : Peak G (.one e) s h) (hp : Peg G e s o) (ho : ∀ r ns, o ≠ .ok r ns) :
    Peak G (.seq (e :: es)) s h := by
  refine ⟨.seq_first h1.1, fun j hj => ?_⟩
  cases hj with
  | start => exact Nat.zero_le _
  | seq_first hj => exact h1.2 _ hj
  | seq_next hp' hj => exact absurd (peg_det hp hp') (ho _ _)

theorem peak_alt_more {e es s h p} (h1 : Peak G (.one e) s h) (hp : Peg G e s .fail) (h2 : Peak G (.alt es) s p) :
    Peak G (.alt (e :: es)) s (max h p) := by
  constructor
  · rcases Nat.le_total h p with hl | hl
    · rw [Nat.max_eq_right hl]; exact .alt_next hp h2.1
    · rw [Nat.max_eq_left hl]; exact .alt_first h1.1
  · intro j hj
    cases hj with
    | start => exact Nat.zero_le _
    | alt_first hj => exact (h1.2 _ hj).trans (Nat.le_max_left _ _)
    | alt_next hp' hj => exact (h2.2 _ hj).trans (Nat.le_max_right _ _)

theorem peak_alt_stop {e es s o h} (h1 : Peak G (.one e) s h) (hp : Peg G e s o) (ho : o ≠ .fail) :
    Peak G (.alt (e :: es)) s h := by
  refine ⟨.alt_first h1.1, fun j hj => ?_⟩
  cases hj with
  | start => exact Nat.zero_le _
  | alt_first hj => exact h1.2 _ hj
  | alt_next hp' hj => exact absurd (peg_det hp hp') ho

theorem peak_loop_more {e mx s r ns h p} (h0 : mx ≠ some 0) (h1 : Peak G (.one e) s h) (hp : Peg G e s (.ok r ns))
    (h2 : Peak G (.loop e (mx.map (· - 1))) r p) : Peak G (.loop e mx) s (max h (countTrees ns + p)) := by
  constructor
  · rcases Nat.le_total h (countTrees ns + p) with hl | hl
    · rw [Nat.max_eq_right hl]; exact .loop_next h0 hp h2.1
    · rw [Nat.max_eq_left hl]; exact .loop_first h0 h1.1
  · intro j hj
    cases hj with
    | start => exact Nat.zero_le _
    | loop_first _ hj => exact (h1.2 _ hj).trans (Nat.le_max_left _ _)
    | loop_next _ hp' hj =>
      cases peg_det hp hp'
      have := h2.2 _ hj
      exact Nat.le_trans (by omega) (Nat.le_max_right _ _)

theorem peak_loop_stop {e mx s o h} (h0 : mx ≠ some 0) (h1 : Peak G (.one e) s h) (hp : Peg G e s o) (ho : ∀ r ns, o ≠ .ok r ns) :
    Peak G (.loop e mx) s h := by
  refine ⟨.loop_first h0 h1.1, fun j hj => ?_⟩
  cases hj with
  | start => exact Nat.zero_le _
  | loop_first _ hj => exact h1.2 _ hj
  | loop_next _ hp' hj => exact absurd (peg_det hp hp') (ho _ _)

theorem held_peak {R : SetOfRules} (text : Str) : ∀ f,
    (∀ st n, Inv text st → Done (meterRuleName R f st n).1 → Peak (denotes R) (.one (.ruleName n)) st.itParsing (heldRuleName R f st n)) ∧
    (∀ st e, Inv text st → Done (meterExpr R f st e).1 → Peak (denotes R) (.one (effective e)) st.itParsing (heldExpr R f st e)) ∧
    (∀ st es acc, Inv text st → Done (meterAnd R f st es acc).1 →
      ∃ p, heldAnd R f st es acc = countTrees acc + p ∧ Peak (denotes R) (.seq (effectives es)) st.itParsing p) ∧
    (∀ st es acc, Inv text st → Done (meterOr R f st es acc).1 → Peak (denotes R) (.alt (effectives es)) st.itParsing (heldOr R f st es)) ∧
    (∀ e mn mx st k acc, Inv text st → (∀ m, mx = some (m + 1) → k < m + 1) → Done (meterRepeat R f e mn mx st k acc).1 →
      ∃ p, heldRepeat R f e mn mx st k acc = countTrees acc + p ∧ Peak (denotes R) (.loop (effective e) (roundsLeft mx k)) st.itParsing p) := by
  intro f
  induction f with
  | zero =>
    refine ⟨?_, ?_, ?_, ?_, ?_⟩ <;> intros
    · rename_i h; rw [meterRuleName] at h; exact absurd rfl h.1
    · rename_i h; rw [meterExpr] at h; exact absurd rfl h.1
    · rename_i h; rw [meterAnd] at h; exact absurd rfl h.1
    · rename_i h; rw [meterOr] at h; exact absurd rfl h.1
    · rename_i h; rw [meterRepeat] at h; exact absurd rfl h.1
  | succ f ih =>
    obtain ⟨ih1, ih2, ih3, ih4, ih5⟩ := ih
    have er := (meter_erase R f).2.1
    refine ⟨?_, ?_, ?_, ?_, ?_⟩
    · intro st n hI hd
      have hI' : Inv text (if st.traceRules then st.pushRule (c!"r:" ++ n) else st) := by
        split
        · exact ⟨hI.text, hI.at_⟩
        · exact hI
      have hit : (if st.traceRules then st.pushRule (c!"r:" ++ n) else st).itParsing = st.itParsing := by split <;> rfl
      rw [meterRuleName] at hd
      rw [heldRuleName]
      generalize (if st.traceRules then st.pushRule (c!"r:" ++ n) else st) = st' at *
      cases hg : R.get n with
      | none =>
        have hG : denotes R n = none := by show (grammar R n).map effective = none; rw [show grammar R n = none from hg]; rfl
        refine peak_zero fun j hj => ?_
        cases hj with
        | start => rfl
        | call h => rw [hG] at h; cases h
        | made h => rw [hG] at h; cases h
      | some e =>
        rw [hg] at hd
        have hG : denotes R n = some (effective e) := by
          show (grammar R n).map effective = _
          rw [show grammar R n = some e from hg]; rfl
        have h1 := ih2 st' e hI'
        have h2 := peg_of_sound (f := f) (e := e) hI' (er st' e).symm
        rw [hit] at h1 h2
        simp only at hd ⊢
        rw [← er]
        revert h1 h2 hd
        rcases meterExpr R f st' e with ⟨⟨s', v⟩ | x | _ | _, m⟩
        · intro hd h1 h2
          have h1 := h1 ⟨by simp, by simp⟩
          simp only [PegRes] at h2
          simp only [nodesIn_count, countTree]
          constructor
          · rcases Nat.le_total (heldExpr R f st' e) (countTrees v + 1) with hl | hl
            · rw [Nat.max_eq_right hl]; exact .made hG h2
            · rw [Nat.max_eq_left hl]; exact .call hG h1.1
          · intro j hj
            cases hj with
            | start => exact Nat.zero_le _
            | call h hj => rw [hG] at h; cases h; exact (h1.2 _ hj).trans (Nat.le_max_left _ _)
            | made h hp => rw [hG] at h; cases h; cases peg_det h2 hp; exact Nat.le_max_right _ _
        · intro hd h1 h2
          have h1 := h1 ⟨by simp, by simp⟩
          simp only [Nat.max_zero]
          refine ⟨.call hG h1.1, fun j hj => ?_⟩
          cases hj with
          | start => exact Nat.zero_le _
          | call h hj => rw [hG] at h; cases h; exact h1.2 _ hj
          | made h hp =>
            rw [hG] at h; cases h
            simp only [PegRes] at h2
            split at h2
            · obtain ⟨w, q, h2⟩ := h2
              cases peg_det h2 hp
            · cases peg_det h2 hp
        · intro hd; exact absurd rfl hd.2
        · intro hd; exact absurd rfl hd.1
    · intro st e hI hd
      cases e with
      | simple a =>
        have h2 := peg_of_sound (R := R) (f := f + 1) (e := .simple a) hI rfl
        rw [effective] at h2 ⊢
        rw [heldExpr]
        rw [parseExpr, parseAtomAsExpr] at h2
        rw [meterExpr, parseAtomAsExpr] at hd
        cases hx : parseAtom st a with
        | ok y =>
          obtain ⟨st', node⟩ := y
          rw [hx] at h2
          simp only [PegRes] at h2
          have hn : nodesIn node = countTrees [node] := by simp [countTrees, nodesIn_count]
          simp only [hn]
          refine ⟨.atom h2, fun j hj => ?_⟩
          cases hj with
          | start => exact Nat.zero_le _
          | atom hp => cases peg_det h2 hp; exact Nat.le_refl _
        | err er =>
          rw [hx] at h2
          refine peak_zero fun j hj => ?_
          cases hj with
          | start => rfl
          | atom hp =>
            simp only [PegRes] at h2
            split at h2
            · obtain ⟨w, q, h2⟩ := h2
              cases peg_det h2 hp
            · cases peg_det h2 hp
        | panic => rw [hx] at hd; exact absurd rfl hd.2
        | diverge => rw [hx] at hd; exact absurd rfl hd.1
      | and es =>
        rw [meterExpr] at hd
        rw [effective, heldExpr]
        obtain ⟨p, h1, h2⟩ := ih3 st es [] hI hd
        rw [h1, countTrees, Nat.zero_add]
        refine ⟨.and h2.1, fun j hj => ?_⟩
        cases hj with
        | start => exact Nat.zero_le _
        | and hj => exact h2.2 _ hj
      | or es =>
        rw [meterExpr] at hd
        rw [effective, heldExpr]
        have h2 := ih4 st es none hI hd
        refine ⟨.or h2.1, fun j hj => ?_⟩
        cases hj with
        | start => exact Nat.zero_le _
        | or hj => exact h2.2 _ hj
      | not e =>
        rw [meterExpr] at hd
        rw [effective, heldExpr]
        have h2 := ih2 st e hI (by
          revert hd
          rcases meterExpr R f st e with ⟨x | x | _ | _, m⟩
          · intro _; exact ⟨by simp, by simp⟩
          · intro _; exact ⟨by simp, by simp⟩
          · intro hd; exact absurd rfl hd.2
          · intro hd; exact absurd rfl hd.1)
        refine ⟨.not h2.1, fun j hj => ?_⟩
        cases hj with
        | start => exact Nat.zero_le _
        | not hj => exact h2.2 _ hj
      | rep e mn mx =>
        rw [meterExpr] at hd
        obtain ⟨mn', h⟩ := effective_rep e mn mx
        rw [h, heldExpr]
        obtain ⟨p, h1, h2⟩ := ih5 e mn mx st 0 [] hI (by omega) hd
        rw [h1, countTrees, Nat.zero_add]
        refine ⟨.rep h2.1, fun j hj => ?_⟩
        cases hj with
        | start => exact Nat.zero_le _
        | rep hj => exact h2.2 _ hj
      | ruleName n =>
        rw [meterExpr] at hd
        rw [effective, heldExpr]
        refine ih1 st n hI ?_
        revert hd
        rcases meterRuleName R f st n with ⟨x | x | _ | _, m⟩
        · intro _; exact ⟨by simp, by simp⟩
        · intro _; exact ⟨by simp, by simp⟩
        · intro hd; exact absurd rfl hd.2
        · intro hd; exact absurd rfl hd.1
    · intro st es acc hI hd
      cases es with
      | nil => rw [heldAnd, nodesInAll_count, effectives]; exact ⟨0, rfl, peak_seq_nil _⟩
      | cons e es =>
        rw [meterAnd] at hd
        rw [heldAnd, nodesInAll_count, effectives]
        have h1 := ih2 st e hI
        have h2 := peg_of_sound (f := f) (e := e) hI (er st e).symm
        have h3 := fun x (h : (meterExpr R f st e).1 = .ok x) => inv_after hI ((er st e).symm.trans h)
        rw [← er]
        revert h1 h2 h3 hd
        rcases meterExpr R f st e with ⟨⟨s', v⟩ | x | _ | _, m⟩
        · intro hd h1 h2 h3
          obtain ⟨p, h4, h5⟩ := ih3 s' es (acc ++ v) (h3 _ rfl) hd
          refine ⟨_, ?_, peak_seq_more (h1 ⟨by simp, by simp⟩) h2 h5⟩
          simp only [h4, countTrees_append]
          omega
        · intro hd h1 h2 h3
          refine ⟨heldExpr R f st e, by simp only; omega, ?_⟩
          simp only [PegRes] at h2
          split at h2
          · obtain ⟨w, q, h2⟩ := h2
            exact peak_seq_stop (h1 ⟨by simp, by simp⟩) h2 (by simp)
          · exact peak_seq_stop (h1 ⟨by simp, by simp⟩) h2 (by simp)
        · intro hd; exact absurd rfl hd.2
        · intro hd; exact absurd rfl hd.1
    · intro st es acc hI hd
      cases es with
      | nil => rw [heldOr, effectives]; exact peak_alt_nil _
      | cons e es =>
        rw [meterOr] at hd
        rw [heldOr, effectives]
        have h1 := ih2 st e hI
        have h2 := peg_of_sound (f := f) (e := e) hI (er st e).symm
        rw [← er]
        revert h1 h2 hd
        rcases meterExpr R f st e with ⟨⟨s', v⟩ | x | _ | _, m⟩
        · intro hd h1 h2
          simp only [Nat.max_zero]
          exact peak_alt_stop (h1 ⟨by simp, by simp⟩) h2 (by simp)
        · intro hd h1 h2
          simp only [PegRes] at h2 hd ⊢
          split at h2
          · rename_i hc
            obtain ⟨w, q, h2⟩ := h2
            rw [if_pos hc, Nat.max_zero]
            exact peak_alt_stop (h1 ⟨by simp, by simp⟩) h2 (by simp)
          · rename_i hc
            rw [if_neg hc] at hd
            rw [if_neg hc]
            exact peak_alt_more (h1 ⟨by simp, by simp⟩) h2 (ih4 _ _ _ hI hd)
        · intro hd; exact absurd rfl hd.2
        · intro hd; exact absurd rfl hd.1
    · intro e mn mx st k acc hI hk hd
      rw [meterRepeat] at hd
      rw [heldRepeat, nodesInAll_count]
      have h0 := roundsLeft_ne hk
      have h1 := ih2 st e hI
      have h2 := peg_of_sound (f := f) (e := e) hI (er st e).symm
      have h3 := fun x (h : (meterExpr R f st e).1 = .ok x) => inv_after hI ((er st e).symm.trans h)
      rw [← er]
      revert h1 h2 h3 hd
      rcases meterExpr R f st e with ⟨⟨s', v⟩ | x | _ | _, m⟩
      · intro hd h1 h2 h3
        simp only [PegRes] at hd h2 ⊢
        cases ht : touchMaxBound mx k with
        | true =>
          rw [if_pos rfl]
          have := peak_loop_more h0 (h1 ⟨by simp, by simp⟩) h2 (p := 0) (by rw [roundsLeft_last ht]; exact peak_loop_full _ _)
          refine ⟨_, ?_, this⟩
          rw [nodesInAll_count, countTrees_append]
          omega
        | false =>
          rw [ht] at hd
          simp only [Bool.false_eq_true, if_false] at hd ⊢
          obtain ⟨h4, h5⟩ := roundsLeft_next ht hk
          obtain ⟨p, h6, h7⟩ := ih5 e mn mx s' (k + 1) (acc ++ v) (h3 _ rfl) h5 hd
          refine ⟨_, ?_, peak_loop_more h0 (h1 ⟨by simp, by simp⟩) h2 (by rw [h4]; exact h7)⟩
          rw [h6, countTrees_append]
          omega
      · intro hd h1 h2 h3
        refine ⟨heldExpr R f st e, by simp only; omega, ?_⟩
        simp only [PegRes] at h2
        split at h2
        · obtain ⟨w, q, h2⟩ := h2
          exact peak_loop_stop h0 (h1 ⟨by simp, by simp⟩) h2 (by simp)
        · exact peak_loop_stop h0 (h1 ⟨by simp, by simp⟩) h2 (by simp)
      · intro hd; exact absurd rfl hd.2
      · intro hd; exact absurd rfl hd.1

/-- **C104**: where `parse` returns, it is the greatest number of nodes that there are, in the declarative semantics, at a moment of
matching `main`. -/
theorem C104_peak {s : Str} (ha : Ascii s) (R : SetOfRules) (h : Nat) :
    Holds s R h ↔ parse s R ≠ .diverge ∧ Peak (denotes R) (.one (.ruleName c!"main")) s h := by
  have forth : ∀ h, Holds s R h → Peak (denotes R) (.one (.ruleName c!"main")) s h := by
    rintro h ⟨f, hd, rfl⟩
    refine (held_peak s f).1 (.init s) c!"main" (inv_init s) ?_
    rw [(meter_erase R f).1]
    exact ⟨hd, ne_panic_of_ascii ha hd⟩
  refine ⟨fun hh => ⟨(C104_exists s R).2 ⟨h, hh⟩, forth h hh⟩, fun ⟨hd, hp⟩ => ?_⟩
  obtain ⟨h', hh⟩ := (C104_exists s R).1 hd
  have hp' := forth h' hh
  rwa [Nat.le_antisymm (hp.2 _ hp'.1) (hp'.2 _ hp.1)] at hh

/-- **C104**: the nodes of what has matched are kept while the rest of a sequence is tried, also if that fails. -/
theorem C104_kept {s : Str} (ha : Ascii s) {R : SetOfRules} {h e es r ns} (hh : Holds s R h)
    (hm : denotes R c!"main" = some (.and (e :: es))) (hp : Peg (denotes R) e s (.ok r ns)) {k} (hk : Pending (denotes R) (.seq es) r k) :
    countTrees ns + k ≤ h :=
  ((C104_peak ha R h).1 hh).2.2 _ (.call hm (.and (.seq_next hp hk)))

/-! ### Examples -/

/-- `main = 'a' ('b' 'c' / 'b' 'd')` -/
def keptRules : SetOfRules :=
  ⟨[(c!"main", .and [.simple (.literal c!"a"), .or [.and [.simple (.literal c!"b"), .simple (.literal c!"c")],
    .and [.simple (.literal c!"b"), .simple (.literal c!"d")]]])]⟩

/-- on `abe` there are two nodes, though in no sequence there is more than one -/
example : Holds c!"abe" keptRules 2 := ⟨20, by decide +kernel, by decide +kernel⟩

example {h} (hh : Holds c!"abe" keptRules h) : 1 + 1 ≤ h :=
  C104_kept (e := .simple (.literal c!"a")) (r := c!"be") (ns := [.val c!"a"]) (by decide) hh rfl (.lit_ok c!"a" c!"be")
    (.seq_first (.or (.alt_first (.and (.seq_first (.atom (.lit_ok c!"b" c!"e")))))))

example : Peak (denotes keptRules) (.one (.ruleName c!"main")) c!"abe" 2 :=
  ((C104_peak (by decide) keptRules 2).1 ⟨20, by decide +kernel, by decide +kernel⟩).2

/-- `main = ("a" "b" "c")*` on `abcab`: the nodes of the first round and two of the second, though the tree has only four -/
example : Holds c!"abcab" ⟨[(c!"main", .rep (.and [.simple (.literal c!"a"), .simple (.literal c!"b"), .simple (.literal c!"c")]) 0 none)]⟩ 5 :=
  ⟨20, by decide +kernel, by decide +kernel⟩

/-- the condition that `parse` returns is needed: `main = main` never has a node -/
example : Peak (denotes ⟨[(c!"main", .ruleName c!"main")]⟩) (.one (.ruleName c!"main")) [] 0 := by
  have hG : denotes ⟨[(c!"main", .ruleName c!"main")]⟩ c!"main" = some (.ruleName c!"main") := rfl
  have never : ∀ {e s o}, Peg (denotes ⟨[(c!"main", .ruleName c!"main")]⟩) e s o → e ≠ .ruleName c!"main" := by
    intro e s o hp he
    induction hp with
    | call_ok h _ ih => cases he; rw [hG] at h; cases h; exact ih rfl
    | call_fail h _ ih => cases he; rw [hG] at h; cases h; exact ih rfl
    | call_crit h _ ih => cases he; rw [hG] at h; cases h; exact ih rfl
    | call_missing h => cases he; rw [hG] at h; cases h
    | _ => cases he
  have none : ∀ {t s j}, Pending (denotes ⟨[(c!"main", .ruleName c!"main")]⟩) t s j → t = .one (.ruleName c!"main") → j = 0 := by
    intro t s j hj ht
    induction hj with
    | start => rfl
    | call h _ ih => cases ht; rw [hG] at h; cases h; exact ih rfl
    | made h hp => cases ht; rw [hG] at h; cases h; exact absurd rfl (never hp)
    | _ => cases ht
  exact peak_zero fun j hj => none hj rfl

end DP
