/-
The grammars of README.md under "Rules by example" (for property C64): the derivations of grammars without
recursion are finitely many and can be listed; reading up to the first occurrence of a literal.
-/
import Verif.Proofs.ContextFree
import Verif.Proofs.PegInv
import Verif.Proofs.ReadmeRun

namespace DP
open Spec

/-- every text of `a` with every text of `b` after it -/
def pairs (a b : List (Str × List Node)) : List (Str × List Node) :=
  a.flatMap fun x => b.map fun y => (x.1 ++ y.1, x.2 ++ y.2)

theorem mem_pairs {a b : List (Str × List Node)} {u v ns ms} (h : (u, ns) ∈ a) (h' : (v, ms) ∈ b) :
    (u ++ v, ns ++ ms) ∈ pairs a b :=
  List.mem_flatMap.2 ⟨_, h, List.mem_map.2 ⟨_, h', rfl⟩⟩

/-- everything that is derived, if rules are not nested deeper than the first argument; `none`: not known -/
def derivs (G : Str → Option Expr) : Nat → Expr → Option (List (Str × List Node))
  | 0, _ => none
  | _ + 1, .simple (.literal l) => some [(l, [.val l])]
  | _ + 1, .simple _ => none
  | _ + 1, .and [] => some [([], [])]
  | k + 1, .and (e :: es) => (derivs G k e).bind fun a => (derivs G k (.and es)).map fun b => pairs a b
  | _ + 1, .or [] => some []
  | k + 1, .or (e :: es) => (derivs G k e).bind fun a => (derivs G k (.or es)).map fun b => a ++ b
  | _ + 1, .not _ => none
  | _ + 1, .rep _ _ (some 0) => some [([], [])]
  | k + 1, .rep e mn (some (m + 1)) => (derivs G k e).bind fun a =>
      (derivs G k (.rep e (mn - 1) (some m))).map fun b => (if mn = 0 then [([], [])] else []) ++ pairs a b
  | _ + 1, .rep _ _ none => none
  | k + 1, .ruleName n => (G n).bind fun e => (derivs G k e).map fun a => a.map fun x => (x.1, [.rule n x.2])

theorem derivs_or {G k es l e} (h : derivs G k (.or es) = some l) (hm : e ∈ es) :
    ∃ k' l', derivs G k' e = some l' ∧ ∀ x ∈ l', x ∈ l := by
  induction es generalizing k l with
  | nil => cases hm
  | cons d es ih =>
    cases k with
    | zero => cases h
    | succ k =>
      simp only [derivs, Option.bind_eq_some_iff, Option.map_eq_some_iff] at h
      obtain ⟨a, h1, b, h2, rfl⟩ := h
      rcases List.mem_cons.mp hm with rfl | hm
      · exact ⟨k, a, h1, fun x hx => List.mem_append_left _ hx⟩
      · obtain ⟨k', l', h3, h4⟩ := ih h2 hm
        exact ⟨k', l', h3, fun x hx => List.mem_append_right _ (h4 x hx)⟩

/-- what is derived is listed -/
theorem mem_derivs {G e u ns} (h : Gen G e u ns) : ∀ {k l}, derivs G k e = some l → (u, ns) ∈ l := by
  induction h with
  | lit l =>
    intro k l h
    cases k <;> cases h
    exact List.mem_singleton.2 rfl
  | cls _ => intro k l h; cases k <;> cases h
  | dot _ => intro k l h; cases k <;> cases h
  | eof => intro k l h; cases k <;> cases h
  | nil =>
    intro k l h
    cases k <;> cases h
    exact List.mem_singleton.2 rfl
  | cons _ _ ih1 ih2 =>
    intro k l h
    cases k with
    | zero => cases h
    | succ k =>
      simp only [derivs, Option.bind_eq_some_iff, Option.map_eq_some_iff] at h
      obtain ⟨a, h1, b, h2, rfl⟩ := h
      exact mem_pairs (ih1 h1) (ih2 h2)
  | or hm _ ih =>
    intro k l h
    obtain ⟨k', l', h1, h2⟩ := derivs_or h hm
    exact h2 _ (ih h1)
  | not _ => intro k l h; cases k <;> cases h
  | none e mx =>
    intro k l h
    cases k with
    | zero => cases h
    | succ k =>
      match mx, h with
      | some 0, h => cases h; exact List.mem_singleton.2 rfl
      | some (m + 1), h =>
        simp only [derivs, Option.bind_eq_some_iff, Option.map_eq_some_iff] at h
        obtain ⟨a, h1, b, h2, rfl⟩ := h
        simp
      | .none, h => cases h
  | full e mn =>
    intro k l h
    cases k <;> cases h
    exact List.mem_singleton.2 rfl
  | @more e mn mx u v ns ms hmx _ _ ih1 ih2 =>
    intro k l h
    cases k with
    | zero => cases h
    | succ k =>
      match mx, h, hmx, @ih2 with
      | some 0, h, hmx, _ => exact (hmx rfl).elim
      | some (m + 1), h, _, ih2 =>
        simp only [derivs, Option.bind_eq_some_iff, Option.map_eq_some_iff] at h
        obtain ⟨a, h1, b, h2, rfl⟩ := h
        exact List.mem_append_right _ (mem_pairs (ih1 h1) (ih2 h2))
      | .none, h, _, _ => cases h
  | call hg _ ih =>
    intro k l h
    cases k with
    | zero => cases h
    | succ k =>
      simp only [derivs, hg, Option.bind_some, Option.map_eq_some_iff] at h
      obtain ⟨a, h1, rfl⟩ := h
      exact List.mem_map.2 ⟨_, ih h1, rfl⟩

/-! ### Up to a literal -/

/-- `Before l w r`: in the text `w ++ r`, no occurrence of `l` starts in `w`. -/
def Before (l w r : Str) : Prop := ∀ p q, w = p ++ q → q ≠ [] → ¬ l <+: q ++ r

/-- `(!'l' .)*` reads up to the first occurrence of `l`, or to the end. -/
theorem till_ok {G : Str → Option Expr} {l : Str} : ∀ {w r : Str}, Before l w r → (r = [] ∨ l <+: r) →
    Peg G (.rep (.and [.not (.simple (.literal l)), .simple .dot]) 0 none) (w ++ r) (.ok r (Readme.chars w)) := by
  intro w
  induction w with
  | nil =>
    intro r _ hr
    refine .rep_stop (by simp) ?_
    rcases hr with rfl | ⟨q, rfl⟩
    · by_cases h : l = []
      · subst h
        exact .and_fail (.not_ok (.lit_ok [] []))
      · refine .and_tail_fail (.not_fail (.lit_fail _ _ ?_)) (.and_fail .dot_end)
        rintro ⟨t, ht⟩
        exact h (List.append_eq_nil_iff.1 ht).1
    · exact .and_fail (.not_ok (.lit_ok l q))
  | cons c w ih =>
    intro r h hr
    have h1 := ih (r := r) (fun p q hp hq => h (c :: p) q (by rw [hp]; rfl) hq) hr
    have h2 : Peg G (.and [.not (.simple (.literal l)), .simple .dot]) (c :: w ++ r) (.ok (w ++ r) [.val [c]]) :=
      .and_ok (.not_fail (.lit_fail _ _ (h [] (c :: w) rfl (by simp)))) (.and_ok (.dot_ok c (w ++ r)) (.and_nil _))
    exact .rep_more (by simp) h2 h1

theorem till_split (l : Str) : ∀ s : Str, ∃ w r, s = w ++ r ∧ Before l w r ∧ (r = [] ∨ l <+: r) := by
  intro s
  induction s with
  | nil => exact ⟨[], [], rfl, fun p q h hq => (hq (List.append_eq_nil_iff.1 h.symm).2).elim, .inl rfl⟩
  | cons c s ih =>
    by_cases h : l <+: c :: s
    · exact ⟨[], c :: s, rfl, fun p q h hq => (hq (List.append_eq_nil_iff.1 h.symm).2).elim, .inr h⟩
    · obtain ⟨w, r, rfl, h1, h2⟩ := ih
      refine ⟨c :: w, r, rfl, ?_, h2⟩
      intro p q hp hq
      cases p with
      | nil => cases hp; exact h
      | cons d p => exact h1 p q (List.cons.inj hp).2 hq

theorem till_inv {G : Str → Option Expr} {l s r : Str} {ns}
    (h : Peg G (.rep (.and [.not (.simple (.literal l)), .simple .dot]) 0 none) s (.ok r ns)) :
    ∃ w, s = w ++ r ∧ ns = Readme.chars w ∧ Before l w r ∧ (r = [] ∨ l <+: r) := by
  obtain ⟨w, r', rfl, h1, h2⟩ := till_split l s
  cases peg_det h (till_ok h1 h2)
  exact ⟨w, rfl, rfl, h1, h2⟩

/-- the first occurrence of `l` in `w ++ l` is the last one -/
theorem before_iff {l w : Str} : Before l w l ↔ ∀ p q, w ++ l = p ++ l ++ q → q = [] := by
  constructor
  · intro h p q hw
    rcases Nat.lt_or_ge p.length w.length with hp | hp
    · have hp' : p = w.take p.length := by
        have := congrArg (List.take p.length) hw
        rw [List.take_append_of_le_length (Nat.le_of_lt hp), List.append_assoc, List.take_left' rfl] at this
        exact this.symm
      have hw' : w = p ++ w.drop p.length := by
        conv => lhs; rw [← List.take_append_drop p.length w]
        rw [← hp']
      refine (h p (w.drop p.length) hw' ?_ ?_).elim
      · intro h0
        have := congrArg List.length h0
        simp at this
        omega
      · rw [hw', List.append_assoc, List.append_assoc] at hw
        exact ⟨q, (List.append_cancel_left hw).symm⟩
    · have := congrArg List.length hw
      simp only [List.length_append] at this
      exact List.length_eq_zero_iff.1 (by omega)
  · rintro h p q rfl hq ⟨t, ht⟩
    have := h p t (by rw [List.append_assoc, List.append_assoc, ht])
    subst this
    rw [List.append_nil] at ht
    have := congrArg List.length ht
    simp only [List.length_append] at this
    exact hq (List.length_eq_zero_iff.1 (by omega))

/-- nothing follows: `l` does not occur -/
theorem before_nil {l w : Str} (hl : l ≠ []) : Before l w [] ↔ ¬ l <:+: w := by
  constructor
  · rintro h ⟨p, q, hw⟩
    refine h p (l ++ q) (by rw [← hw, List.append_assoc]) ?_ (by simp)
    intro h0
    exact hl (List.append_eq_nil_iff.1 h0).1
  · rintro h p q rfl hq ⟨t, ht⟩
    rw [List.append_nil] at ht
    exact h ⟨p, t, by rw [List.append_assoc, ht]⟩

end DP
