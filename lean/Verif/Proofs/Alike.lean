/-
Expressions with the same outcomes.
-/
import Verif.Proofs.Regroup
import Verif.Proofs.PegTree

namespace DP
open Spec

theorem ascii_suffix {s r : Str} (ha : Ascii s) (h : r <:+ s) : Ascii r :=
  fun c hc => ha c (h.subset hc)

/-- on ASCII texts, every outcome of `e` is one of `e'` -/
def Within (G : Str → Option Expr) (e e' : Expr) : Prop := ∀ s, Ascii s → ∀ o, Peg G e s o → Peg G e' s o

section
variable {G : Str → Option Expr}

theorem within_and {e e'} (h : Within G e e') (ys) : ∀ xs, Within G (.and (xs ++ e :: ys)) (.and (xs ++ e' :: ys))
  | [], s, ha, o, hp => by
    cases hp with
    | and_ok h1 h2 => exact .and_ok (h s ha _ h1) h2
    | and_fail h1 => exact .and_fail (h s ha _ h1)
    | and_crit h1 => exact .and_crit (h s ha _ h1)
    | and_tail_fail h1 h2 => exact .and_tail_fail (h s ha _ h1) h2
    | and_tail_crit h1 h2 => exact .and_tail_crit (h s ha _ h1) h2
  | x :: xs, s, ha, o, hp => by
    cases hp with
    | and_ok h1 h2 => exact .and_ok h1 (within_and h ys xs _ (ascii_suffix ha (peg_suffix h1 rfl)) _ h2)
    | and_fail h1 => exact .and_fail h1
    | and_crit h1 => exact .and_crit h1
    | and_tail_fail h1 h2 =>
      exact .and_tail_fail h1 (within_and h ys xs _ (ascii_suffix ha (peg_suffix h1 rfl)) _ h2)
    | and_tail_crit h1 h2 =>
      exact .and_tail_crit h1 (within_and h ys xs _ (ascii_suffix ha (peg_suffix h1 rfl)) _ h2)

/-- what is after the first alternatives -/
theorem within_or_prefix {es es'} {s : Str} (h : ∀ o, Peg G (.or es) s o → Peg G (.or es') s o) :
    ∀ xs o, Peg G (.or (xs ++ es)) s o → Peg G (.or (xs ++ es')) s o
  | [], o, hp => h o hp
  | x :: xs, o, hp => by
    cases hp with
    | or_ok h1 => exact .or_ok h1
    | or_crit h1 => exact .or_crit h1
    | or_next h1 h2 => exact .or_next h1 (within_or_prefix h xs o h2)

theorem within_or {e e'} (h : Within G e e') (ys) (xs) : Within G (.or (xs ++ e :: ys)) (.or (xs ++ e' :: ys)) := by
  intro s ha
  refine within_or_prefix (fun o hp => ?_) xs
  cases hp with
  | or_ok h1 => exact .or_ok (h s ha _ h1)
  | or_crit h1 => exact .or_crit (h s ha _ h1)
  | or_next h1 h2 => exact .or_next (h s ha _ h1) h2

theorem within_not {e e'} (h : Within G e e') : Within G (.not e) (.not e') := by
  intro s ha o hp
  cases hp with
  | not_ok h1 => exact .not_ok (h s ha _ h1)
  | not_fail h1 => exact .not_fail (h s ha _ h1)
  | not_crit h1 => exact .not_crit (h s ha _ h1)

theorem within_rep {e e'} (h : Within G e e') (mn mx) : Within G (.rep e mn mx) (.rep e' mn mx) := by
  intro s ha o hp
  generalize hE : Expr.rep e mn mx = E at hp
  induction hp generalizing mn mx with
  | rep_full => cases hE; exact .rep_full _ _ _
  | rep_more hm h1 _ _ ih =>
    cases hE; exact .rep_more hm (h _ ha _ h1) (ih _ _ (ascii_suffix ha (peg_suffix h1 rfl)) rfl)
  | rep_stop hm h1 => cases hE; exact .rep_stop hm (h _ ha _ h1)
  | rep_few hm h0 h1 => cases hE; exact .rep_few hm h0 (h _ ha _ h1)
  | rep_crit hm h1 => cases hE; exact .rep_crit hm (h _ ha _ h1)
  | rep_more_fail hm h1 _ _ ih =>
    cases hE; exact .rep_more_fail hm (h _ ha _ h1) (ih _ _ (ascii_suffix ha (peg_suffix h1 rfl)) rfl)
  | rep_more_crit hm h1 _ _ ih =>
    cases hE; exact .rep_more_crit hm (h _ ha _ h1) (ih _ _ (ascii_suffix ha (peg_suffix h1 rfl)) rfl)
  | _ => cases hE

/-- `e*` does not fail -/
theorem star_ne_fail (e : Expr) {s : Str} (h : Peg G (.rep e 0 none) s .fail) : False := by
  generalize hE : Expr.rep e 0 none = E at h
  generalize ho : Outcome.fail = o at h
  induction h with
  | rep_few _ h0 => cases hE; exact absurd h0 (by simp)
  | rep_more_fail _ _ _ _ ih => cases hE; exact ih rfl rfl
  | rep_full | rep_more | rep_stop | rep_crit | rep_more_crit => cases ho
  | _ => cases hE

theorem optional_iff (e : Expr) (s o) : Peg G (.rep e 0 (some 1)) s o ↔ Peg G (.or [e, .and []]) s o := by
  constructor
  · intro h
    cases h with
    | rep_more _ h1 h2 =>
      cases h2 with
      | rep_full => rw [List.append_nil]; exact .or_ok h1
      | rep_more hm => exact absurd rfl hm
      | rep_stop hm => exact absurd rfl hm
    | rep_stop _ h1 => exact .or_next h1 (.or_ok (.and_nil _))
    | rep_few _ h0 => exact absurd h0 (by simp)
    | rep_crit _ h1 => exact .or_crit h1
    | rep_more_fail _ _ h2 =>
      cases h2 with
      | rep_few hm => exact absurd rfl hm
      | rep_more_fail hm => exact absurd rfl hm
    | rep_more_crit _ _ h2 =>
      cases h2 with
      | rep_crit hm => exact absurd rfl hm
      | rep_more_crit hm => exact absurd rfl hm
  · intro h
    cases h with
    | or_ok h1 => have := Peg.rep_more (mn := 0) (mx := some 1) (by simp) h1 (.rep_full _ _ _); simpa using this
    | or_crit h1 => exact .rep_crit (by simp) h1
    | or_next h1 h2 =>
      cases h2 with
      | or_ok h2 => cases h2; exact .rep_stop (by simp) h1
      | or_crit h2 => cases h2
      | or_next h2 => cases h2

theorem star_iff (e : Expr) (s o) :
    Peg G (.rep e 0 none) s o ↔ Peg G (.or [.and [e, .rep e 0 none], .and []]) s o := by
  constructor
  · intro h
    cases h with
    | rep_more _ h1 h2 =>
      have := Peg.or_ok (es := [Expr.and []]) (Peg.and_ok h1 (Peg.and_ok h2 (.and_nil _)))
      rw [List.append_nil] at this; exact this
    | rep_stop _ h1 => exact .or_next (.and_fail h1) (.or_ok (.and_nil _))
    | rep_few _ h0 => exact absurd h0 (by simp)
    | rep_crit _ h1 => exact .or_crit (.and_crit h1)
    | rep_more_fail _ _ h2 => exact (star_ne_fail e h2).elim
    | rep_more_crit _ h1 h2 => exact .or_crit (.and_tail_crit h1 (.and_crit h2))
  · intro h
    cases h with
    | or_ok h1 =>
      cases h1 with
      | and_ok h1 h2 =>
        cases h2 with
        | and_ok h2 h3 => cases h3; rw [List.append_nil]; exact .rep_more (by simp) h1 h2
    | or_crit h1 =>
      cases h1 with
      | and_crit h1 => exact .rep_crit (by simp) h1
      | and_tail_crit h1 h2 =>
        cases h2 with
        | and_crit h2 => exact .rep_more_crit (by simp) h1 h2
        | and_tail_crit _ h2 => cases h2
    | or_next h1 h2 =>
      cases h2 with
      | or_ok h2 =>
        cases h2
        cases h1 with
        | and_fail h1 => exact .rep_stop (by simp) h1
        | and_tail_fail h1 h2 =>
          cases h2 with
          | and_tail_fail _ h2 => cases h2
          | and_fail h2 => exact (star_ne_fail e h2).elim
      | or_crit h2 => cases h2
      | or_next h2 => cases h2

theorem not3_iff (e : Expr) (s o) : Peg G (.not (.not (.not e))) s o ↔ Peg G (.not e) s o := by
  constructor
  · intro h
    cases h with
    | not_ok h =>
      cases h with
      | not_fail h => cases h with | not_ok h => exact .not_ok h
      | not_crit h => cases h
    | not_fail h =>
      cases h with
      | not_ok h =>
        cases h with
        | not_fail h => exact .not_fail h
        | not_crit h => exact .not_crit h
    | not_crit h => cases h
  · intro h
    cases h with
    | not_ok h => exact .not_ok (.not_fail (.not_ok h))
    | not_fail h => exact .not_fail (.not_ok (.not_fail h))
    | not_crit h => exact .not_fail (.not_ok (.not_crit h))

/-- If `f` fails wherever `e` does, it is not needed after `e`. -/
theorem or_dead {e f : Expr} {s : Str} (h : Peg G e s .fail → Peg G f s .fail) (xs ys zs o) :
    Peg G (.or (xs ++ e :: ys ++ f :: zs)) s o ↔ Peg G (.or (xs ++ e :: ys ++ zs)) s o := by
  rw [List.append_assoc, List.append_assoc]
  constructor
  · refine within_or_prefix (fun o hp => ?_) xs o
    cases hp with
    | or_ok h1 => exact .or_ok h1
    | or_crit h1 => exact .or_crit h1
    | or_next h1 h2 =>
      refine .or_next h1 (within_or_prefix (fun o hp => ?_) ys o h2)
      cases hp with
      | or_ok h2 => cases peg_det (h h1) h2
      | or_crit h2 => cases peg_det (h h1) h2
      | or_next _ h2 => exact h2
  · refine within_or_prefix (fun o hp => ?_) xs o
    cases hp with
    | or_ok h1 => exact .or_ok h1
    | or_crit h1 => exact .or_crit h1
    | or_next h1 h2 =>
      exact .or_next h1 (within_or_prefix (fun o hp => .or_next (h h1) hp) ys o h2)

theorem or_nothing_iff (xs ys : List Expr) (s o) :
    Peg G (.or (xs ++ .or [] :: ys)) s o ↔ Peg G (.or (xs ++ ys)) s o := by
  constructor
  · refine within_or_prefix (fun o hp => ?_) xs o
    cases hp with
    | or_ok h1 => cases h1
    | or_crit h1 => cases h1
    | or_next _ h2 => exact h2
  · exact within_or_prefix (fun o hp => .or_next (.or_nil s) hp) xs o

theorem class_split {a b : Expr} {cs : Str} {rs : List (Char × Char)} {P Q : Char → Prop}
    (hA : ∀ c r, P c → Peg G a (c :: r) (.ok r [.val [c]])) (hA' : ∀ c r, ¬ P c → Peg G a (c :: r) .fail)
    (hA0 : Peg G a [] .fail)
    (hB : ∀ c r, Q c → Peg G b (c :: r) (.ok r [.val [c]])) (hB' : ∀ c r, ¬ Q c → Peg G b (c :: r) .fail)
    (hB0 : Peg G b [] .fail) (h : ∀ c, InClass cs rs c ↔ P c ∨ Q c) (s o) :
    Peg G (.simple (.mtch cs rs)) s o ↔ Peg G (.or [a, b]) s o := by
  have hex : ∃ o, Peg G (.simple (.mtch cs rs)) s o ∧ Peg G (.or [a, b]) s o := by
    cases s with
    | nil => exact ⟨.fail, .class_end _ _, .or_next hA0 (.or_next hB0 (.or_nil _))⟩
    | cons c r =>
      by_cases hp : P c
      · exact ⟨_, .class_ok _ _ _ _ ((h c).2 (.inl hp)), .or_ok (hA c r hp)⟩
      · by_cases hq : Q c
        · exact ⟨_, .class_ok _ _ _ _ ((h c).2 (.inr hq)), .or_next (hA' c r hp) (.or_ok (hB c r hq))⟩
        · exact ⟨_, .class_fail _ _ _ _ (fun hc => ((h c).1 hc).elim hp hq),
            .or_next (hA' c r hp) (.or_next (hB' c r hq) (.or_nil _))⟩
  obtain ⟨o', h1, h2⟩ := hex
  constructor
  · intro hx; rw [peg_det hx h1]; exact h2
  · intro hx; rw [peg_det hx h2]; exact h1

theorem class_char_iff (c cs rs s o) :
    Peg G (.simple (.mtch (c :: cs) rs)) s o ↔ Peg G (.or [.simple (.literal [c]), .simple (.mtch cs rs)]) s o := by
  refine class_split (P := fun x => x = c) (Q := InClass cs rs) ?_ ?_ ?_ ?_ ?_ ?_ ?_ s o
  · rintro x r rfl; exact .lit_ok [x] r
  · intro x r hx
    refine .lit_fail _ _ ?_
    rintro ⟨t, ht⟩
    simp only [List.cons_append, List.nil_append, List.cons.injEq] at ht
    exact hx ht.1.symm
  · exact .lit_fail _ _ (by simp)
  · exact fun x r h => .class_ok _ _ _ _ h
  · exact fun x r h => .class_fail _ _ _ _ h
  · exact .class_end _ _
  · intro x; simp [InClass, or_assoc]

theorem class_range_iff (cs r rs s o) :
    Peg G (.simple (.mtch cs (r :: rs))) s o ↔
      Peg G (.or [.simple (.mtch [] [r]), .simple (.mtch cs rs)]) s o := by
  refine class_split (P := InClass [] [r]) (Q := InClass cs rs) ?_ ?_ ?_ ?_ ?_ ?_ ?_ s o
  · exact fun x r h => .class_ok _ _ _ _ h
  · exact fun x r h => .class_fail _ _ _ _ h
  · exact .class_end _ _
  · exact fun x r h => .class_ok _ _ _ _ h
  · exact fun x r h => .class_fail _ _ _ _ h
  · exact .class_end _ _
  · intro x
    simp only [InClass, List.mem_cons, exists_eq_or_imp, List.not_mem_nil, false_or, exists_eq_left, or_false]
    tauto

end

/-! ### the laws -/

theorem peg_of_same {R : SetOfRules} {e e'} (h : Same e e') : Within (denotes R) (effective e) (effective e') := by
  intro s ha o hp
  have hI := inv_init s
  have hc := runExpr_complete (R := R) (e := e) hI hp
  have hs := runExpr_sound (R := R) (e := e') hI
  rw [← same_run h] at hs
  rcases hc with hc | hc
  · exact absurd hc (runExpr_ne_panic ha (invP_init s))
  · cases o with
    | ok r ns =>
      obtain ⟨st', h1, h2⟩ := hc
      rw [h1] at hs
      simp only [SoundRes, h2] at hs
      exact hs
    | fail =>
      obtain ⟨er, h1, h2⟩ := hc
      rw [h1] at hs
      rcases hs with ⟨_, hs⟩ | ⟨h3, _⟩
      · exact hs
      · rw [h2] at h3; cases h3
    | crit d r =>
      obtain ⟨er, h1, h2, h3, pre, h4, h5⟩ := hc
      rw [h1] at hs
      rcases hs with ⟨h6, _⟩ | ⟨_, pre', r', h6, h7, hs⟩
      · rw [h2] at h6; cases h6
      · have hl : pre.length = pre'.length := by
          rw [← h5.n, ← h7.n]
        have : r = r' := by
          have := h4.symm.trans h6
          exact (List.append_inj this hl).2
        rw [h3, ← this] at hs
        exact hs

theorem effectives_append (xs ys) : effectives (xs ++ ys) = effectives xs ++ effectives ys := by
  simp [effectives_eq_map]

theorem alike_within {R : SetOfRules} {e e'} (h : Alike e e') :
    Within (denotes R) (effective e) (effective e') ∧ Within (denotes R) (effective e') (effective e) := by
  have iff : ∀ {a b : Expr}, (∀ s o, Peg (denotes R) a s o ↔ Peg (denotes R) b s o) →
      Within (denotes R) a b ∧ Within (denotes R) b a :=
    fun h => ⟨fun s _ o => (h s o).1, fun s _ o => (h s o).2⟩
  induction h with
  | same h => exact ⟨peg_of_same h, peg_of_same h.symm⟩
  | symm _ ih => exact ⟨ih.2, ih.1⟩
  | trans _ _ ih1 ih2 =>
    exact ⟨fun s ha o h => ih2.1 s ha o (ih1.1 s ha o h), fun s ha o h => ih1.2 s ha o (ih2.2 s ha o h)⟩
  | and_at xs ys _ ih =>
    simp only [effective, effectives_append, effectives]
    exact ⟨within_and ih.1 _ _, within_and ih.2 _ _⟩
  | or_at xs ys _ ih =>
    simp only [effective, effectives_append, effectives]
    exact ⟨within_or ih.1 _ _, within_or ih.2 _ _⟩
  | not _ ih => simp only [effective]; exact ⟨within_not ih.1, within_not ih.2⟩
  | rep mn mx _ ih =>
    rcases mx with _ | _ | m <;> simp only [effective] <;> exact ⟨within_rep ih.1 _ _, within_rep ih.2 _ _⟩
  | optional e => simp only [effective, effectives]; exact iff (fun s o => by simpa using optional_iff (effective e) s o)
  | star e => simp only [effective, effectives]; exact iff (star_iff (effective e))
  | not_not_not e => simp only [effective]; exact iff (not3_iff (effective e))
  | or_again xs e ys zs =>
    simp only [effective, effectives_append, effectives]
    exact iff (fun s o => by simpa using or_dead (fun h => h) (effectives xs) (effectives ys) (effectives zs) o)
  | or_shadowed xs e ys ws zs =>
    simp only [effective, effectives_append, effectives]
    exact iff (fun s o => by simpa using or_dead (fun h => .and_fail h) (effectives xs) (effectives ys) (effectives zs) o)
  | or_longer xs l ys l' zs =>
    simp only [effective, effectives_append, effectives]
    refine iff (fun s o => ?_)
    have : Peg (denotes R) (.simple (.literal l)) s .fail → Peg (denotes R) (.simple (.literal (l ++ l'))) s .fail := by
      intro h
      refine .lit_fail _ _ (fun hp => ?_)
      have hl : l <+: s := (List.prefix_append l l').trans hp
      obtain ⟨t, rfl⟩ := hl
      cases peg_det h (.lit_ok l t)
    simpa using or_dead this (effectives xs) (effectives ys) (effectives zs) o
  | or_nothing xs ys =>
    simp only [effective, effectives_append, effectives]
    exact iff (or_nothing_iff _ _)
  | class_char c cs rs => simp only [effective, effectives]; exact iff (class_char_iff c cs rs)
  | class_range cs r rs => simp only [effective, effectives]; exact iff (class_range_iff cs r rs)
  | class_none =>
    simp only [effective, effectives]
    refine iff fun s o => ?_
    have h1 : Peg (denotes R) (.simple (.mtch [] [])) s .fail := by
      cases s with
      | nil => exact .class_end _ _
      | cons c r => exact .class_fail _ _ _ _ (by simp [InClass])
    exact ⟨fun h => peg_det h1 h ▸ .or_nil s, fun h => by cases h; exact h1⟩

/-! ### another set of rules -/

theorem peg_transfer {G G' : Str → Option Expr} (h0 : ∀ n, G' n = none → G n = none)
    (h1 : ∀ n e', G' n = some e' → ∃ e, G n = some e ∧ Within G e' e) {x s o} (h : Peg G' x s o) :
    Ascii s → Peg G x s o := by
  induction h with
  | lit_ok => exact fun _ => .lit_ok _ _
  | lit_fail _ _ h => exact fun _ => .lit_fail _ _ h
  | class_ok _ _ _ _ h => exact fun _ => .class_ok _ _ _ _ h
  | class_fail _ _ _ _ h => exact fun _ => .class_fail _ _ _ _ h
  | class_end => exact fun _ => .class_end _ _
  | dot_ok => exact fun _ => .dot_ok _ _
  | dot_end => exact fun _ => .dot_end
  | eof_ok => exact fun _ => .eof_ok
  | eof_fail => exact fun _ => .eof_fail _ _
  | error => exact fun _ => .error _ _
  | and_nil => exact fun _ => .and_nil _
  | and_ok p _ ih1 ih2 => exact fun ha => .and_ok (ih1 ha) (ih2 (ascii_suffix ha (peg_suffix p rfl)))
  | and_fail _ ih => exact fun ha => .and_fail (ih ha)
  | and_crit _ ih => exact fun ha => .and_crit (ih ha)
  | and_tail_fail p _ ih1 ih2 => exact fun ha => .and_tail_fail (ih1 ha) (ih2 (ascii_suffix ha (peg_suffix p rfl)))
  | and_tail_crit p _ ih1 ih2 => exact fun ha => .and_tail_crit (ih1 ha) (ih2 (ascii_suffix ha (peg_suffix p rfl)))
  | or_nil => exact fun _ => .or_nil _
  | or_ok _ ih => exact fun ha => .or_ok (ih ha)
  | or_crit _ ih => exact fun ha => .or_crit (ih ha)
  | or_next _ _ ih1 ih2 => exact fun ha => .or_next (ih1 ha) (ih2 ha)
  | not_ok _ ih => exact fun ha => .not_ok (ih ha)
  | not_fail _ ih => exact fun ha => .not_fail (ih ha)
  | not_crit _ ih => exact fun ha => .not_crit (ih ha)
  | rep_full => exact fun _ => .rep_full _ _ _
  | rep_more hm p _ ih1 ih2 => exact fun ha => .rep_more hm (ih1 ha) (ih2 (ascii_suffix ha (peg_suffix p rfl)))
  | rep_stop hm _ ih => exact fun ha => .rep_stop hm (ih ha)
  | rep_few hm h _ ih => exact fun ha => .rep_few hm h (ih ha)
  | rep_crit hm _ ih => exact fun ha => .rep_crit hm (ih ha)
  | rep_more_fail hm p _ ih1 ih2 =>
    exact fun ha => .rep_more_fail hm (ih1 ha) (ih2 (ascii_suffix ha (peg_suffix p rfl)))
  | rep_more_crit hm p _ ih1 ih2 =>
    exact fun ha => .rep_more_crit hm (ih1 ha) (ih2 (ascii_suffix ha (peg_suffix p rfl)))
  | call_ok hg _ ih =>
    obtain ⟨e, h2, h3⟩ := h1 _ _ hg
    exact fun ha => .call_ok h2 (h3 _ ha _ (ih ha))
  | call_fail hg _ ih =>
    obtain ⟨e, h2, h3⟩ := h1 _ _ hg
    exact fun ha => .call_fail h2 (h3 _ ha _ (ih ha))
  | call_crit hg _ ih =>
    obtain ⟨e, h2, h3⟩ := h1 _ _ hg
    exact fun ha => .call_crit h2 (h3 _ ha _ (ih ha))
  | call_missing hg => exact fun _ => .call_missing (h0 _ hg)

theorem alikeRules_symm {R R'} (h : AlikeRules R R') : AlikeRules R' R := by
  intro n
  have := h n
  cases h1 : R.entries.lookup n <;> cases h2 : R'.entries.lookup n <;> rw [h1, h2] at this <;>
    first | exact this | exact Alike.symm this

theorem alikeRules_peg {R R'} (h : AlikeRules R R') {x s o} (ha : Ascii s) (hp : Peg (denotes R') x s o) :
    Peg (denotes R) x s o := by
  refine peg_transfer ?_ ?_ hp ha
  · intro n hn
    have := h n
    unfold denotes grammar at hn ⊢
    cases h1 : R.entries.lookup n <;> cases h2 : R'.entries.lookup n <;> rw [h1, h2] at this <;>
      simp_all
  · intro n e' hn
    have := h n
    unfold denotes grammar at hn ⊢
    cases h1 : R.entries.lookup n with
    | none => cases h2 : R'.entries.lookup n <;> rw [h1, h2] at this <;> simp_all
    | some e =>
      cases h2 : R'.entries.lookup n with
      | none => rw [h1, h2] at this; exact this.elim
      | some e2 =>
        rw [h1, h2] at this
        rw [h2] at hn
        simp only [Option.map_some, Option.some.injEq] at hn
        subst hn
        exact ⟨effective e, rfl, (alike_within this).2⟩

theorem alikeRules_peg_iff {R R'} (h : AlikeRules R R') {x s o} (ha : Ascii s) :
    Peg (denotes R) x s o ↔ Peg (denotes R') x s o :=
  ⟨alikeRules_peg (alikeRules_symm h) ha, alikeRules_peg h ha⟩

end DP
