/-
The matcher and the context-free reading of the rules.
-/
import Verif.Spec.ContextFree
import Verif.Proofs.Total

namespace DP
open Spec

section
variable {G : Str → Option Expr}

/-- what the matcher consumes is derived -/
theorem gen_of_peg {e s o} (h : Peg G e s o) : ∀ r ns, o = .ok r ns → ∃ u, s = u ++ r ∧ Gen G e u ns := by
  induction h with
  | lit_ok l r => rintro _ _ ⟨⟩; exact ⟨l, rfl, .lit l⟩
  | class_ok cs rs c r h => rintro _ _ ⟨⟩; exact ⟨[c], rfl, .cls h⟩
  | dot_ok c r => rintro _ _ ⟨⟩; exact ⟨[c], rfl, .dot c⟩
  | eof_ok => rintro _ _ ⟨⟩; exact ⟨[], rfl, .eof⟩
  | and_nil s => rintro _ _ ⟨⟩; exact ⟨[], rfl, .nil⟩
  | and_ok _ _ ih1 ih2 =>
    rintro _ _ ⟨⟩
    obtain ⟨u, rfl, h1⟩ := ih1 _ _ rfl
    obtain ⟨v, rfl, h2⟩ := ih2 _ _ rfl
    exact ⟨u ++ v, by simp, .cons h1 h2⟩
  | or_ok _ ih =>
    rintro _ _ ⟨⟩
    obtain ⟨u, rfl, h1⟩ := ih _ _ rfl
    exact ⟨u, rfl, .or (by simp) h1⟩
  | or_next _ _ _ ih =>
    intro r ns ho
    obtain ⟨u, rfl, h1⟩ := ih _ _ ho
    cases h1 with
    | or hm h1 => exact ⟨u, rfl, .or (by simp [hm]) h1⟩
  | not_fail _ _ => rintro _ _ ⟨⟩; exact ⟨[], rfl, .not _⟩
  | not_crit _ _ => rintro _ _ ⟨⟩; exact ⟨[], rfl, .not _⟩
  | rep_full e mn s => rintro _ _ ⟨⟩; exact ⟨[], rfl, .full _ _⟩
  | rep_more hm _ _ ih1 ih2 =>
    rintro _ _ ⟨⟩
    obtain ⟨u, rfl, h1⟩ := ih1 _ _ rfl
    obtain ⟨v, rfl, h2⟩ := ih2 _ _ rfl
    exact ⟨u ++ v, by simp, .more hm h1 h2⟩
  | rep_stop hm _ _ => rintro _ _ ⟨⟩; exact ⟨[], rfl, .none _ _⟩
  | call_ok hg _ ih =>
    rintro _ _ ⟨⟩
    obtain ⟨u, rfl, h1⟩ := ih _ _ rfl
    exact ⟨u, rfl, .call hg h1⟩
  | _ => rintro _ _ ⟨⟩

theorem plain_and_cons {e es} (h : Plain G (.and (e :: es))) : Plain G e ∧ Plain G (.and es) := by
  cases h with
  | and h => exact ⟨h e (by simp), .and fun x hx => h x (by simp [hx])⟩

theorem plain_or_cons {e es} (h : Plain G (.or (e :: es))) : Plain G e ∧ Plain G (.or es) := by
  cases h with
  | or h => exact ⟨h e (by simp), .or fun x hx => h x (by simp [hx])⟩

theorem plain_rep {e mn mx} (h : Plain G (.rep e mn mx)) : Plain G e := by
  cases h with
  | rep h => exact h

/-- without `error(...)` and missing rules nothing is critical -/
theorem plain_no_crit (hG : ∀ n e, G n = some e → Plain G e) {e s o} (h : Peg G e s o) :
    Plain G e → ∀ w q, o ≠ .crit w q := by
  induction h with
  | error m s => intro hp; cases hp
  | and_crit _ ih => intro hp w q; rintro ⟨⟩; exact ih (plain_and_cons hp).1 _ _ rfl
  | and_tail_crit _ _ _ ih => intro hp w q; rintro ⟨⟩; exact ih (plain_and_cons hp).2 _ _ rfl
  | or_crit _ ih => intro hp w q; rintro ⟨⟩; exact ih (plain_or_cons hp).1 _ _ rfl
  | or_next _ _ _ ih => intro hp; exact ih (plain_or_cons hp).2
  | rep_crit _ _ ih => intro hp w q; rintro ⟨⟩; exact ih (plain_rep hp) _ _ rfl
  | rep_more_crit _ _ _ _ ih => intro hp w q; rintro ⟨⟩; exact ih (.rep (plain_rep hp)) _ _ rfl
  | call_crit hg _ ih => intro hp w q; rintro ⟨⟩; exact ih (hG _ _ hg) _ _ rfl
  | call_missing hg => intro hp; cases hp with | call hg' => rw [hg] at hg'; cases hg'
  | _ => intro _ _ _; rintro ⟨⟩

/-- what does not derive the empty text nor anything that begins with the next character does not match -/
theorem fail_of_head (hG : ∀ n e, G n = some e → Plain G e)
    (ht : ∀ s e, RepOK G e → ∃ o, Peg G e s o) {e} (hp : Plain G e) (hr : RepOK G e) {s : Str}
    (hn : ¬ Nullable G e) (hc : ∀ c, First G e c → s.head? ≠ some c) : Peg G e s .fail := by
  obtain ⟨o, ho⟩ := ht s e hr
  cases o with
  | fail => exact ho
  | crit w q => exact absurd rfl (plain_no_crit hG ho hp w q)
  | ok r ns =>
    obtain ⟨u, rfl, h⟩ := gen_of_peg ho _ _ rfl
    cases u with
    | nil => exact absurd ⟨_, h⟩ hn
    | cons c u => exact absurd rfl (hc c ⟨_, _, h⟩)

/-- **LL(1)**: the matcher finds what is derived, whatever comes after it. -/
theorem peg_of_gen (hG : ∀ n e, G n = some e → Plain G e) (hR : ∀ n e, G n = some e → RepOK G e)
    (ht : ∀ s e, RepOK G e → ∃ o, Peg G e s o) (hl : LL1 G) {e u ns} (h : Gen G e u ns) :
    Plain G e → RepOK G e → ∀ r : Str, Follow G e r.head? → Peg G e (u ++ r) (.ok r ns) := by
  induction h with
  | lit l => intro _ _ r _; exact .lit_ok l r
  | cls h => intro _ _ r _; exact .class_ok _ _ _ r h
  | dot c => intro _ _ r _; exact .dot_ok c r
  | eof => intro hp; cases hp
  | nil => intro _ _ r _; exact .and_nil r
  | @cons e es u v ns ms h1 h2 ih1 ih2 =>
    intro hp hr r hf
    have hpp := plain_and_cons hp
    rw [List.append_assoc]
    refine .and_ok (ih1 hpp.1 (repOK_and hr _ (by simp)) (v ++ r) ?_)
      (ih2 hpp.2 (repOK_and_cons hr) r (.rest hf))
    cases v with
    | nil => exact .last hf ⟨_, h2⟩
    | cons c v => exact .next hf ⟨_, _, h2⟩
  | @or es e u ns hm h ih =>
    intro hp hr r hf
    induction es with
    | nil => cases hm
    | cons e0 es ihl =>
      have hpp := plain_or_cons hp
      have hr0 : RepOK G e0 := fun b mn hs => hr b mn (.or (by simp) hs)
      rcases List.mem_cons.mp hm with rfl | hm
      · exact .or_ok (ih hpp.1 hr0 r (.alternative hf))
      · refine .or_next ?_ (ihl hm hpp.2 (repOK_or_cons hr) (.alternatives hf))
        cases es with
        | nil => cases hm
        | cons e1 es =>
          obtain ⟨hn, hc⟩ := hl.choice _ _ _ _ hf
          refine fail_of_head hG ht hpp.1 hr0 hn fun c hfc heq => ?_
          cases u with
          | nil => exact (hc c hfc).2 ⟨_, .or hm h⟩ heq
          | cons d u =>
            cases heq
            exact (hc c hfc).1 ⟨_, _, .or hm h⟩
  | not e => intro hp; cases hp
  | none e mx =>
    intro hp hr r hf
    by_cases hm : mx = some 0
    · subst hm; exact .rep_full e 0 r
    · obtain ⟨hn, hc⟩ := hl.repetition _ _ _ hf hm
      exact .rep_stop hm (fail_of_head hG ht (plain_rep hp) (fun b mn hs => hr b mn (.rep hs)) hn hc)
  | full e mn => intro _ _ r _; exact .rep_full e mn r
  | @more e mn mx u v ns ms hm h1 h2 ih1 ih2 =>
    intro hp hr r hf
    have hpp := plain_rep hp
    rw [List.append_assoc]
    refine .rep_more hm (ih1 hpp (fun b mn hs => hr b mn (.rep hs)) (v ++ r) ?_)
      (ih2 (.rep hpp) (repOK_rep hr) r (.repeats hf hm))
    cases v with
    | nil => exact .once hf hm ⟨_, h2⟩
    | cons c v => exact .again hf hm ⟨_, _, h2⟩
  | call hg h ih =>
    intro _ _ r hf
    exact .call_ok hg (ih (hG _ _ hg) (hR _ _ hg) r (.body hg hf))

/-! ### Alternatives in another order -/

theorem shuffle_mem {es es' : List Expr} (h : List.Forall₂ Shuffle es es') {e} (hm : e ∈ es) : ∃ e' ∈ es', Shuffle e e' := by
  induction h with
  | nil => cases hm
  | cons h1 _ ih =>
    rcases List.mem_cons.mp hm with rfl | hm
    · exact ⟨_, by simp, h1⟩
    · obtain ⟨e', h2, h3⟩ := ih hm
      exact ⟨e', by simp [h2], h3⟩

theorem shuffle_mem' {es es' : List Expr} (h : List.Forall₂ Shuffle es es') {e'} (hm : e' ∈ es') : ∃ e ∈ es, Shuffle e e' := by
  induction h with
  | nil => cases hm
  | cons h1 _ ih =>
    rcases List.mem_cons.mp hm with rfl | hm
    · exact ⟨_, by simp, h1⟩
    · obtain ⟨e', h2, h3⟩ := ih hm
      exact ⟨e', by simp [h2], h3⟩

variable {G' : Str → Option Expr}

theorem gen_shuffle (hG : ∀ n e, G n = some e → ∃ e', G' n = some e' ∧ Shuffle e e') {e u ns} (h : Gen G e u ns) :
    ∀ e', Shuffle e e' → Gen G' e' u ns := by
  induction h with
  | lit l => intro e' h; cases h; exact .lit l
  | cls hc => intro e' h; cases h; exact .cls hc
  | dot c => intro e' h; cases h; exact .dot c
  | eof => intro e' h; cases h; exact .eof
  | nil => intro e' h; cases h with | and h => cases h; exact .nil
  | cons _ _ ih1 ih2 =>
    intro e' h
    cases h with
    | and h => cases h with | cons h1 h2 => exact .cons (ih1 _ h1) (ih2 _ (.and h2))
  | or hm _ ih =>
    intro e' h
    cases h with
    | or h hp =>
      obtain ⟨x, hx, hs⟩ := shuffle_mem h hm
      exact .or (hp.mem_iff.mp hx) (ih _ hs)
  | not e => intro e' h; cases h; exact .not _
  | none e mx => intro e' h; cases h; exact .none _ _
  | full e mn => intro e' h; cases h; exact .full _ _
  | more hm _ _ ih1 ih2 =>
    intro e' h
    cases h with
    | rep mn mx h => exact .more hm (ih1 _ h) (ih2 _ (.rep _ _ h))
  | call hg _ ih =>
    intro e' h
    cases h
    obtain ⟨x, hx, hs⟩ := hG _ _ hg
    exact .call hx (ih _ hs)

theorem gen_shuffle' (hG : ∀ n e', G' n = some e' → ∃ e, G n = some e ∧ Shuffle e e') {e' u ns} (h : Gen G' e' u ns) :
    ∀ e, Shuffle e e' → Gen G e u ns := by
  induction h with
  | lit l => intro e' h; cases h; exact .lit l
  | cls hc => intro e' h; cases h; exact .cls hc
  | dot c => intro e' h; cases h; exact .dot c
  | eof => intro e' h; cases h; exact .eof
  | nil => intro e' h; cases h with | and h => cases h; exact .nil
  | cons _ _ ih1 ih2 =>
    intro e' h
    cases h with
    | and h => cases h with | cons h1 h2 => exact .cons (ih1 _ h1) (ih2 _ (.and h2))
  | or hm _ ih =>
    intro e' h
    cases h with
    | or h hp =>
      obtain ⟨x, hx, hs⟩ := shuffle_mem' h (hp.mem_iff.mpr hm)
      exact .or hx (ih _ hs)
  | not e => intro e' h; cases h; exact .not _
  | none e mx => intro e' h; cases h; exact .none _ _
  | full e mn => intro e' h; cases h; exact .full _ _
  | more hm _ _ ih1 ih2 =>
    intro e' h
    cases h with
    | rep mn mx h => exact .more hm (ih1 _ h) (ih2 _ (.rep _ _ h))
  | call hg _ ih =>
    intro e' h
    cases h
    obtain ⟨x, hx, hs⟩ := hG _ _ hg
    exact .call hx (ih _ hs)

end

/-! ### Balanced parentheses -/

/-- sequences of groups -/
inductive Groups : Str → Prop
  | nil : Groups []
  | cons {u v} : Groups u → Groups v → Groups ('(' :: (u ++ ')' :: v))

def Pieces : Nat → Str → Prop
  | 0, s => Groups s
  | n + 1, s => ∃ u v, s = u ++ ')' :: v ∧ Groups u ∧ Pieces n v

theorem pieces_group {u} (hu : Groups u) : ∀ {n v}, Pieces n v → Pieces n ('(' :: (u ++ ')' :: v))
  | 0, _, h => .cons hu h
  | n + 1, _, h => by
    obtain ⟨u', v', rfl, h1, h2⟩ := h
    exact ⟨'(' :: (u ++ ')' :: u'), v', by simp, .cons hu h1, h2⟩

theorem pieces_of_balanced : ∀ {s n}, balanced n s = true → Pieces n s
  | [], n, h => by
    cases n with
    | zero => exact .nil
    | succ n => simp [balanced] at h
  | c :: s, n, h => by
    by_cases h1 : c = '('
    · subst h1
      rw [balanced] at h
      obtain ⟨u, v, rfl, h2, h3⟩ := pieces_of_balanced h
      exact pieces_group h2 h3
    · by_cases h2 : c = ')'
      · subst h2
        cases n with
        | zero => simp [balanced] at h
        | succ n =>
          rw [balanced] at h
          exact ⟨[], s, rfl, .nil, pieces_of_balanced h⟩
      · unfold balanced at h
        split at h <;> simp_all

theorem balanced_of_groups {u} (h : Groups u) : ∀ n r, balanced n (u ++ r) = balanced n r := by
  induction h with
  | nil => intro n r; rfl
  | @cons u v _ _ ih1 ih2 =>
    intro n r
    have h1 : ('(' :: (u ++ ')' :: v)) ++ r = '(' :: (u ++ (')' :: (v ++ r))) := by simp
    rw [h1, balanced, ih1, balanced, ih2]

theorem balanced_iff {s} : balanced 0 s = true ↔ Groups s :=
  ⟨fun h => pieces_of_balanced h, fun h => by
    have := balanced_of_groups h 0 []
    rw [List.append_nil] at this
    rw [this, balanced]⟩

end DP
