/-
Totality of the PEG semantics for well-formed grammars, and its failure otherwise.
-/
import Verif.Spec.WellFormed
import Verif.Proofs.Complete
import Mathlib.Data.Fintype.Card
import Mathlib.Order.WellFounded
import Mathlib.Data.Finite.Defs

namespace DP
open Spec

/-- A match never adds to the text, and consumes something unless the expression can be empty. -/
theorem peg_length {G e s o} (h : Peg G e s o) : ∀ r ns, o = .ok r ns →
    r.length ≤ s.length ∧ (r.length = s.length → CanEmpty G e) := by
  induction h with
  | lit_ok l r =>
    intro r' ns ho; cases ho
    refine ⟨by simp, ?_⟩
    intro h
    simp only [List.length_append] at h
    have : l = [] := List.length_eq_zero_iff.mp (by omega)
    subst this; exact .lit
  | class_ok cs rs c r _ =>
    intro r' ns ho; cases ho
    exact ⟨by simp, by intro h; simp at h⟩
  | dot_ok c r =>
    intro r' ns ho; cases ho
    exact ⟨by simp, by intro h; simp at h⟩
  | eof_ok => intro r' ns ho; cases ho; exact ⟨by simp, fun _ => .eof⟩
  | and_nil s => intro r' ns ho; cases ho; exact ⟨Nat.le_refl _, fun _ => .and (by simp)⟩
  | and_ok _ _ ih1 ih2 =>
    intro r' ns ho; cases ho
    obtain ⟨h1, h2⟩ := ih1 _ _ rfl
    obtain ⟨h3, h4⟩ := ih2 _ _ rfl
    refine ⟨by omega, ?_⟩
    intro h
    have h5 := h2 (by omega)
    have h6 := h4 (by omega)
    refine .and ?_
    intro x hx
    rcases List.mem_cons.mp hx with rfl | hx
    · exact h5
    · cases h6 with | and h => exact h x hx
  | or_ok _ ih =>
    intro r' ns ho; cases ho
    obtain ⟨h1, h2⟩ := ih _ _ rfl
    exact ⟨h1, fun h => .or (by simp) (h2 h)⟩
  | or_next _ _ _ ih =>
    intro r' ns ho; subst ho
    obtain ⟨h1, h2⟩ := ih _ _ rfl
    refine ⟨h1, fun h => ?_⟩
    cases h2 h with | or hm he => exact .or (by simp [hm]) he
  | not_fail _ _ => intro r' ns ho; cases ho; exact ⟨Nat.le_refl _, fun _ => .not _⟩
  | not_crit _ _ => intro r' ns ho; cases ho; exact ⟨Nat.le_refl _, fun _ => .not _⟩
  | rep_full e mn s => intro r' ns ho; cases ho; exact ⟨Nat.le_refl _, fun _ => .rep_max_zero _ _⟩
  | rep_more _ _ _ ih1 ih2 =>
    intro r' ns ho; cases ho
    obtain ⟨h1, h2⟩ := ih1 _ _ rfl
    obtain ⟨h3, h4⟩ := ih2 _ _ rfl
    exact ⟨by omega, fun h => .rep (h2 (by omega))⟩
  | rep_stop _ _ _ => intro r' ns ho; cases ho; exact ⟨Nat.le_refl _, fun _ => .rep_zero _ _⟩
  | call_ok hg _ ih =>
    intro r' ns ho; cases ho
    obtain ⟨h1, h2⟩ := ih _ _ rfl
    exact ⟨h1, fun h => .call hg (h2 h)⟩
  | _ => intro r' ns ho; cases ho

/-- no empty unbounded repetition in the expression -/
def RepOK (G : Str → Option Expr) (e : Expr) : Prop := ∀ b mn, Sub (.rep b mn none) e → ¬ CanEmpty G b

theorem repOK_and {G es} (h : RepOK G (.and es)) : ∀ e ∈ es, RepOK G e :=
  fun _ he b mn hs => h b mn (.and he hs)

theorem repOK_and_cons {G e es} (h : RepOK G (.and (e :: es))) : RepOK G (.and es) := by
  intro b mn hs
  cases hs with
  | and hm hs => exact h b mn (.and (by simp [hm]) hs)

theorem repOK_or_cons {G e es} (h : RepOK G (.or (e :: es))) : RepOK G (.or es) := by
  intro b mn hs
  cases hs with
  | or hm hs => exact h b mn (.or (by simp [hm]) hs)

theorem repOK_rep {G e mn mx} (h : RepOK G (.rep e mn mx)) :
    RepOK G (.rep e (mn - 1) (mx.map (· - 1))) := by
  intro b mn' hs
  generalize hx : mx.map (· - 1) = mx' at hs
  cases hs with
  | refl =>
    cases mx with
    | none => exact h _ mn (.refl _)
    | some m => cases hx
  | rep hs => exact h b mn' (.rep hs)

/-- One length: if shorter texts and the rules callable at once are fine, so is the expression. -/
theorem total_expr {G : Str → Option Expr} {N : Nat}
    (hshort : ∀ s : Str, s.length < N → ∀ e, RepOK G e → ∃ o, Peg G e s o) :
    ∀ e, RepOK G e → (∀ n, LeftCalls G e n → ∀ s : Str, s.length = N → ∃ o, Peg G (.ruleName n) s o) →
      ∀ s : Str, s.length = N → ∃ o, Peg G e s o
  | .simple a, _, _, s, _ => by
    cases a with
    | literal l =>
      by_cases h : l <+: s
      · obtain ⟨r, rfl⟩ := h; exact ⟨_, .lit_ok l r⟩
      · exact ⟨_, .lit_fail l s h⟩
    | mtch cs rs =>
      cases s with
      | nil => exact ⟨_, .class_end _ _⟩
      | cons c r =>
        by_cases h : InClass cs rs c
        · exact ⟨_, .class_ok _ _ _ _ h⟩
        · exact ⟨_, .class_fail _ _ _ _ h⟩
    | error m => exact ⟨_, .error m s⟩
    | dot => cases s with
      | nil => exact ⟨_, .dot_end⟩
      | cons c r => exact ⟨_, .dot_ok _ _⟩
    | eof => cases s with
      | nil => exact ⟨_, .eof_ok⟩
      | cons c r => exact ⟨_, .eof_fail _ _⟩
  | .and [], _, _, s, _ => ⟨_, .and_nil s⟩
  | .and (e :: es), hr, hl, s, hs => by
    obtain ⟨o, ho⟩ := total_expr hshort e (repOK_and hr e (by simp))
      (fun n hn => hl n (.and (pre := []) (by simp) hn)) s hs
    cases o with
    | fail => exact ⟨_, .and_fail ho⟩
    | crit w q => exact ⟨_, .and_crit ho⟩
    | ok r ns =>
      have htail : ∃ o, Peg G (.and es) r o := by
        obtain ⟨h1, h2⟩ := peg_length ho r ns rfl
        rcases Nat.lt_or_ge r.length N with h | h
        · exact hshort r h _ (repOK_and_cons hr)
        · have hce := h2 (by omega)
          refine total_expr hshort (.and es) (repOK_and_cons hr) (fun n hn => hl n ?_) r (by omega)
          cases hn with
          | @and pre x post _ hp hx =>
            refine LeftCalls.and (pre := e :: pre) ?_ hx
            intro y hy
            rcases List.mem_cons.mp hy with rfl | hy
            · exact hce
            · exact hp y hy
      obtain ⟨o, ho'⟩ := htail
      cases o with
      | ok r' ns' => exact ⟨_, .and_ok ho ho'⟩
      | fail => exact ⟨_, .and_tail_fail ho ho'⟩
      | crit w q => exact ⟨_, .and_tail_crit ho ho'⟩
  | .or [], _, _, s, _ => ⟨_, .or_nil s⟩
  | .or (e :: es), hr, hl, s, hs => by
    obtain ⟨o, ho⟩ := total_expr hshort e (fun b mn h => hr b mn (.or (by simp) h))
      (fun n hn => hl n (.or (by simp) hn)) s hs
    cases o with
    | ok r ns => exact ⟨_, .or_ok ho⟩
    | crit w q => exact ⟨_, .or_crit ho⟩
    | fail =>
      obtain ⟨o, ho'⟩ := total_expr hshort (.or es) (repOK_or_cons hr) (fun n hn => hl n (by
        cases hn with | or hm hn => exact .or (by simp [hm]) hn)) s hs
      exact ⟨o, .or_next ho ho'⟩
  | .not e, hr, hl, s, hs => by
    obtain ⟨o, ho⟩ := total_expr hshort e (fun b mn h => hr b mn (.not h)) (fun n hn => hl n (.not hn)) s hs
    cases o with
    | ok r ns => exact ⟨_, .not_ok ho⟩
    | crit w q => exact ⟨_, .not_crit ho⟩
    | fail => exact ⟨_, .not_fail ho⟩
  | .rep e mn mx, hr, hl, s, hs => by
    have hbody : ∀ s : Str, s.length = N → ∃ o, Peg G e s o :=
      total_expr hshort e (fun b mn h => hr b mn (.rep h)) (fun n hn => hl n (.rep hn))
    have hnone : mx = none → ¬ CanEmpty G e := fun h => hr e mn (by rw [h]; exact .refl _)
    clear hl
    suffices ∀ k : Nat, ∀ mn mx, (mx = none → ¬ CanEmpty G e) → RepOK G (.rep e mn mx) →
        (∀ m, mx = some m → m ≤ k) → ∀ s : Str, s.length = N → ∃ o, Peg G (.rep e mn mx) s o from
      this (mx.getD 0) mn mx hnone hr (by intro m hm; simp [hm]) s hs
    intro k
    induction k with
    | zero =>
      intro mn mx hn hr hk s hs
      by_cases h0 : mx = some 0
      · subst h0; exact ⟨_, .rep_full e mn s⟩
      · have hx : mx = none := by
          cases mx with
          | none => rfl
          | some m => exact absurd (congrArg some (Nat.le_zero.mp (hk m rfl))) h0
        obtain ⟨o, ho⟩ := hbody s hs
        cases o with
        | fail =>
          rcases Nat.eq_zero_or_pos mn with h | h
          · subst h; exact ⟨_, .rep_stop h0 ho⟩
          · exact ⟨_, .rep_few h0 h ho⟩
        | crit w q => exact ⟨_, .rep_crit h0 ho⟩
        | ok r ns =>
          obtain ⟨h1, h2⟩ := peg_length ho r ns rfl
          have hlt : r.length < N := by
            rcases Nat.lt_or_ge r.length N with h | h
            · exact h
            · exact absurd (h2 (by omega)) (hn hx)
          obtain ⟨o, ho'⟩ := hshort r hlt _ (repOK_rep hr)
          cases o with
          | ok r' ns' => exact ⟨_, .rep_more h0 ho ho'⟩
          | fail => exact ⟨_, .rep_more_fail h0 ho ho'⟩
          | crit w q => exact ⟨_, .rep_more_crit h0 ho ho'⟩
    | succ k ih =>
      intro mn mx hn hr hk s hs
      by_cases h0 : mx = some 0
      · subst h0; exact ⟨_, .rep_full e mn s⟩
      · obtain ⟨o, ho⟩ := hbody s hs
        cases o with
        | fail =>
          rcases Nat.eq_zero_or_pos mn with h | h
          · subst h; exact ⟨_, .rep_stop h0 ho⟩
          · exact ⟨_, .rep_few h0 h ho⟩
        | crit w q => exact ⟨_, .rep_crit h0 ho⟩
        | ok r ns =>
          have htail : ∃ o, Peg G (.rep e (mn - 1) (mx.map (· - 1))) r o := by
            obtain ⟨h1, h2⟩ := peg_length ho r ns rfl
            rcases Nat.lt_or_ge r.length N with h | h
            · exact hshort r h _ (repOK_rep hr)
            · refine ih _ _ ?_ (repOK_rep hr) ?_ r (by omega)
              · intro hm
                cases mx with
                | none => exact hn rfl
                | some m => cases hm
              · intro m hm
                cases mx with
                | none => cases hm
                | some m' =>
                  simp only [Option.map_some, Option.some.injEq] at hm
                  have := hk m' rfl
                  omega
          obtain ⟨o, ho'⟩ := htail
          cases o with
          | ok r' ns' => exact ⟨_, .rep_more h0 ho ho'⟩
          | fail => exact ⟨_, .rep_more_fail h0 ho ho'⟩
          | crit w q => exact ⟨_, .rep_more_crit h0 ho ho'⟩
  | .ruleName n, _, hl, s, hs => hl n (.here n) s hs
termination_by e => sizeOf e

theorem total_peg {G : Str → Option Expr} (hwf : WellFounded (fun m n => LeftStep G n m))
    (hrep : ∀ n e, G n = some e → RepOK G e) :
    ∀ (N : Nat) (s : Str), s.length = N → ∀ e, RepOK G e → ∃ o, Peg G e s o := by
  intro N
  induction N using Nat.strong_induction_on with
  | _ N ih =>
    have hshort : ∀ s : Str, s.length < N → ∀ e, RepOK G e → ∃ o, Peg G e s o :=
      fun s hs e he => ih s.length hs s rfl e he
    have hname : ∀ n, ∀ s : Str, s.length = N → ∃ o, Peg G (.ruleName n) s o := by
      intro n
      induction n using hwf.induction with
      | _ n ihn =>
        intro s hs
        cases hg : G n with
        | none => exact ⟨_, .call_missing hg⟩
        | some e =>
          obtain ⟨o, ho⟩ := total_expr hshort e (hrep n e hg)
            (fun m hm => ihn m ⟨e, hg, hm⟩) s hs
          cases o with
          | ok r ns => exact ⟨_, .call_ok hg ho⟩
          | fail => exact ⟨_, .call_fail hg ho⟩
          | crit w q => exact ⟨_, .call_crit hg ho⟩
    intro s hs e he
    exact total_expr hshort e he (fun n _ => hname n) s hs

/-- A relation whose sources form a finite list and which has no cycle is well-founded backwards. -/
theorem wf_of_acyclic {α : Type} {r : α → α → Prop} (l : List α) (hl : ∀ a b, r a b → a ∈ l)
    (hac : ∀ a, ¬ Relation.TransGen r a a) : WellFounded (fun b a => r a b) := by
  suffices ∀ (k : Nat) (seen : List α) (a : α), seen.Nodup → (∀ x ∈ seen, x ∈ l) →
      (∀ x ∈ seen, Relation.TransGen r x a) → l.length - seen.length = k → Acc (fun b a => r a b) a from
    ⟨fun a => this _ [] a List.nodup_nil (by simp) (by simp) rfl⟩
  intro k
  induction k with
  | zero =>
    intro seen a hn hs ht hk
    refine Acc.intro a (fun b hb => ?_)
    exfalso
    have ha : a ∉ seen := fun h => hac a (ht a h)
    have : (a :: seen).length ≤ l.length := by
      refine (List.subperm_of_subset (List.nodup_cons.mpr ⟨ha, hn⟩) ?_).length_le
      intro x hx
      rcases List.mem_cons.mp hx with rfl | hx
      · exact hl _ b hb
      · exact hs x hx
    simp only [List.length_cons] at this
    omega
  | succ k ih =>
    intro seen a hn hs ht hk
    refine Acc.intro a (fun b hb => ?_)
    have ha : a ∉ seen := fun h => hac a (ht a h)
    refine ih (a :: seen) b (List.nodup_cons.mpr ⟨ha, hn⟩) ?_ ?_ (by simp only [List.length_cons]; omega)
    · intro x hx
      rcases List.mem_cons.mp hx with rfl | hx
      · exact hl _ b hb
      · exact hs x hx
    · intro x hx
      rcases List.mem_cons.mp hx with rfl | hx
      · exact .single hb
      · exact (ht x hx).tail hb

/-- Re-entering a rule on the same text: there is no outcome. -/
theorem no_outcome_of_reentry {G : Str → Option Expr} {n body t} (hg : G n = some body)
    (hc : Visits G body t (.ruleName n) t) {e s o} (h : Peg G e s o) : ¬ Visits G e s (.ruleName n) t := by
  have hbody : ∀ {e s}, Visits G (.ruleName e) s (.ruleName n) t → ∀ b, G e = some b → Visits G b s (.ruleName n) t := by
    intro e s h b hb
    cases h with
    | refl => rw [hg] at hb; cases hb; exact hc
    | body h1 h2 => rw [hb] at h1; cases h1; exact h2
  induction h with
  | and_ok h1 _ ih1 ih2 =>
    intro h; cases h with
    | and_head h => exact ih1 h
    | and_tail h3 h4 => cases peg_det h1 h3; exact ih2 h4
  | and_fail h1 ih1 =>
    intro h; cases h with
    | and_head h => exact ih1 h
    | and_tail h3 h4 => cases peg_det h1 h3
  | and_crit h1 ih1 =>
    intro h; cases h with
    | and_head h => exact ih1 h
    | and_tail h3 h4 => cases peg_det h1 h3
  | and_tail_fail h1 _ ih1 ih2 =>
    intro h; cases h with
    | and_head h => exact ih1 h
    | and_tail h3 h4 => cases peg_det h1 h3; exact ih2 h4
  | and_tail_crit h1 _ ih1 ih2 =>
    intro h; cases h with
    | and_head h => exact ih1 h
    | and_tail h3 h4 => cases peg_det h1 h3; exact ih2 h4
  | or_ok h1 ih1 =>
    intro h; cases h with
    | or_head h => exact ih1 h
    | or_tail h3 h4 => cases peg_det h1 h3
  | or_crit h1 ih1 =>
    intro h; cases h with
    | or_head h => exact ih1 h
    | or_tail h3 h4 => cases peg_det h1 h3
  | or_next h1 _ ih1 ih2 =>
    intro h; cases h with
    | or_head h => exact ih1 h
    | or_tail h3 h4 => exact ih2 h4
  | not_ok _ ih => intro h; cases h with | not h => exact ih h
  | not_fail _ ih => intro h; cases h with | not h => exact ih h
  | not_crit _ ih => intro h; cases h with | not h => exact ih h
  | rep_full => intro h; cases h with
    | rep_head h0 _ => exact h0 rfl
    | rep_tail h0 _ _ => exact h0 rfl
  | rep_more h0 h1 _ ih1 ih2 =>
    intro h; cases h with
    | rep_head _ h => exact ih1 h
    | rep_tail _ h3 h4 => cases peg_det h1 h3; exact ih2 h4
  | rep_stop h0 h1 ih1 =>
    intro h; cases h with
    | rep_head _ h => exact ih1 h
    | rep_tail _ h3 h4 => cases peg_det h1 h3
  | rep_few h0 _ h1 ih1 =>
    intro h; cases h with
    | rep_head _ h => exact ih1 h
    | rep_tail _ h3 h4 => cases peg_det h1 h3
  | rep_crit h0 h1 ih1 =>
    intro h; cases h with
    | rep_head _ h => exact ih1 h
    | rep_tail _ h3 h4 => cases peg_det h1 h3
  | rep_more_fail h0 h1 _ ih1 ih2 =>
    intro h; cases h with
    | rep_head _ h => exact ih1 h
    | rep_tail _ h3 h4 => cases peg_det h1 h3; exact ih2 h4
  | rep_more_crit h0 h1 _ ih1 ih2 =>
    intro h; cases h with
    | rep_head _ h => exact ih1 h
    | rep_tail _ h3 h4 => cases peg_det h1 h3; exact ih2 h4
  | call_ok hg' _ ih => intro h; exact ih (hbody h _ hg')
  | call_fail hg' _ ih => intro h; exact ih (hbody h _ hg')
  | call_crit hg' _ ih => intro h; exact ih (hbody h _ hg')
  | call_missing hg' =>
    intro h; cases h with
    | refl => rw [hg] at hg'; cases hg'
    | body h1 _ => rw [hg'] at h1; cases h1
  | _ => intro h; cases h

/-- An unbounded repetition whose body matches without moving has no outcome. -/
theorem no_outcome_of_empty_rep {G : Str → Option Expr} {b s ns} (hb : Peg G b s (.ok s ns)) :
    ∀ {mn o}, ¬ Peg G (.rep b mn none) s o := by
  intro mn o h
  generalize he : Expr.rep b mn none = e at h
  generalize hs : s = s' at h
  induction h generalizing mn with
  | rep_full => simp at he
  | rep_more h0 h1 _ _ ih2 =>
    cases he; subst hs
    cases peg_det hb h1
    exact ih2 rfl rfl
  | rep_stop h0 h1 _ => cases he; subst hs; cases peg_det hb h1
  | rep_few h0 _ h1 _ => cases he; subst hs; cases peg_det hb h1
  | rep_crit h0 h1 _ => cases he; subst hs; cases peg_det hb h1
  | rep_more_fail h0 h1 _ _ ih2 =>
    cases he; subst hs
    cases peg_det hb h1
    exact ih2 rfl rfl
  | rep_more_crit h0 h1 _ _ ih2 =>
    cases he; subst hs
    cases peg_det hb h1
    exact ih2 rfl rfl
  | _ => cases he

/-- If some visited expression has no outcome, there is no outcome. -/
theorem no_outcome_of_visit {G : Str → Option Expr} {e s x t} (h : Visits G e s x t)
    (hx : ∀ o, ¬ Peg G x t o) : ∀ o, ¬ Peg G e s o := by
  induction h with
  | refl => exact hx
  | body hg _ ih =>
    intro o h
    cases h with
    | call_ok h1 h2 => rw [hg] at h1; cases h1; exact ih hx _ h2
    | call_fail h1 h2 => rw [hg] at h1; cases h1; exact ih hx _ h2
    | call_crit h1 h2 => rw [hg] at h1; cases h1; exact ih hx _ h2
    | call_missing h1 => rw [hg] at h1; cases h1
  | and_head _ ih =>
    intro o h
    cases h with
    | and_ok h _ => exact ih hx _ h
    | and_fail h => exact ih hx _ h
    | and_crit h => exact ih hx _ h
    | and_tail_fail h _ => exact ih hx _ h
    | and_tail_crit h _ => exact ih hx _ h
  | and_tail he _ ih =>
    intro o h
    cases h with
    | and_ok h h2 => cases peg_det he h; exact ih hx _ h2
    | and_fail h => cases peg_det he h
    | and_crit h => cases peg_det he h
    | and_tail_fail h h2 => cases peg_det he h; exact ih hx _ h2
    | and_tail_crit h h2 => cases peg_det he h; exact ih hx _ h2
  | or_head _ ih =>
    intro o h
    cases h with
    | or_ok h => exact ih hx _ h
    | or_crit h => exact ih hx _ h
    | or_next h _ => exact ih hx _ h
  | or_tail he _ ih =>
    intro o h
    cases h with
    | or_ok h => cases peg_det he h
    | or_crit h => cases peg_det he h
    | or_next h h2 => exact ih hx _ h2
  | not _ ih =>
    intro o h
    cases h with
    | not_ok h => exact ih hx _ h
    | not_fail h => exact ih hx _ h
    | not_crit h => exact ih hx _ h
  | rep_head h0 _ ih =>
    intro o h
    cases h with
    | rep_full => exact h0 rfl
    | rep_more _ h _ => exact ih hx _ h
    | rep_stop _ h => exact ih hx _ h
    | rep_few _ _ h => exact ih hx _ h
    | rep_crit _ h => exact ih hx _ h
    | rep_more_fail _ h _ => exact ih hx _ h
    | rep_more_crit _ h _ => exact ih hx _ h
  | rep_tail h0 he _ ih =>
    intro o h
    cases h with
    | rep_full => exact h0 rfl
    | rep_more _ h h2 => cases peg_det he h; exact ih hx _ h2
    | rep_stop _ h => cases peg_det he h
    | rep_few _ _ h => cases peg_det he h
    | rep_crit _ h => cases peg_det he h
    | rep_more_fail _ h h2 => cases peg_det he h; exact ih hx _ h2
    | rep_more_crit _ h h2 => cases peg_det he h; exact ih hx _ h2

end DP
