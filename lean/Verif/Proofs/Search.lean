import Verif.Props.Combine

/-!
# Skipping to the first place where an expression matches
-/

namespace DP
open Spec

/-! ### Rules that do not need another one -/

mutual
theorem refs_effective : ∀ {e : Expr} {n}, Refs (effective e) n → Refs e n
  | .simple _, _, h => by rw [effective] at h; exact h
  | .ruleName _, _, h => by rw [effective] at h; exact h
  | .and es, _, h => by
    rw [effective] at h
    cases h with
    | and hm h => obtain ⟨e, h1, h2⟩ := refs_effectives hm h; exact .and h1 h2
  | .or es, _, h => by
    rw [effective] at h
    cases h with
    | or hm h => obtain ⟨e, h1, h2⟩ := refs_effectives hm h; exact .or h1 h2
  | .not e, _, h => by
    rw [effective] at h
    cases h with
    | not h => exact .not (refs_effective h)
  | .rep e mn none, _, h => by
    rw [effective] at h
    cases h with
    | rep h => exact .rep (refs_effective h)
  | .rep e mn (some 0), _, h => by
    rw [effective] at h
    cases h with
    | rep h => exact .rep (refs_effective h)
  | .rep e mn (some (m + 1)), _, h => by
    rw [effective] at h
    cases h with
    | rep h => exact .rep (refs_effective h)
theorem refs_effectives : ∀ {es : List Expr} {e n}, e ∈ effectives es → Refs e n → ∃ e' ∈ es, Refs e' n
  | [], _, _, hm, _ => by rw [effectives] at hm; cases hm
  | a :: es, _, _, hm, h => by
    rw [effectives] at hm
    rcases List.mem_cons.1 hm with rfl | hm
    · exact ⟨a, List.mem_cons_self .., refs_effective h⟩
    · obtain ⟨e', h1, h2⟩ := refs_effectives hm h
      exact ⟨e', List.mem_cons_of_mem _ h1, h2⟩
end

/-- a rule that nothing refers to may be another one -/
theorem peg_apart {G G' : Str → Option Expr} {k : Str} (hag : ∀ n, n ≠ k → G n = G' n)
    (hno : ∀ n e, n ≠ k → G n = some e → ¬ Refs e k) {e s o} (h : Peg G e s o) : ¬ Refs e k → Peg G' e s o := by
  have and1 : ∀ {e es}, ¬ Refs (.and (e :: es)) k → ¬ Refs e k := fun h h' => h (.and (List.mem_cons_self ..) h')
  have and2 : ∀ {e es}, ¬ Refs (.and (e :: es)) k → ¬ Refs (.and es) k := fun h h' => by
    cases h' with | and hm h' => exact h (.and (List.mem_cons_of_mem _ hm) h')
  have or1 : ∀ {e es}, ¬ Refs (.or (e :: es)) k → ¬ Refs e k := fun h h' => h (.or (List.mem_cons_self ..) h')
  have or2 : ∀ {e es}, ¬ Refs (.or (e :: es)) k → ¬ Refs (.or es) k := fun h h' => by
    cases h' with | or hm h' => exact h (.or (List.mem_cons_of_mem _ hm) h')
  have rep1 : ∀ {e mn mx}, ¬ Refs (.rep e mn mx) k → ¬ Refs e k := fun h h' => h (.rep h')
  have rep2 : ∀ {e mn mx mn' mx'}, ¬ Refs (.rep e mn mx) k → ¬ Refs (.rep e mn' mx') k := fun h h' => by
    cases h' with | rep h' => exact h (.rep h')
  have name : ∀ {n}, ¬ Refs (.ruleName n) k → n ≠ k := fun h h' => h (h' ▸ .here _)
  induction h with
  | lit_ok l r => intro _; exact .lit_ok l r
  | lit_fail l s h => intro _; exact .lit_fail l s h
  | class_ok cs rs c r h => intro _; exact .class_ok cs rs c r h
  | class_fail cs rs c r h => intro _; exact .class_fail cs rs c r h
  | class_end cs rs => intro _; exact .class_end cs rs
  | dot_ok c r => intro _; exact .dot_ok c r
  | dot_end => intro _; exact .dot_end
  | eof_ok => intro _; exact .eof_ok
  | eof_fail c r => intro _; exact .eof_fail c r
  | error m s => intro _; exact .error m s
  | and_nil s => intro _; exact .and_nil s
  | and_ok _ _ ih1 ih2 => intro hn; exact .and_ok (ih1 (and1 hn)) (ih2 (and2 hn))
  | and_fail _ ih => intro hn; exact .and_fail (ih (and1 hn))
  | and_crit _ ih => intro hn; exact .and_crit (ih (and1 hn))
  | and_tail_fail _ _ ih1 ih2 => intro hn; exact .and_tail_fail (ih1 (and1 hn)) (ih2 (and2 hn))
  | and_tail_crit _ _ ih1 ih2 => intro hn; exact .and_tail_crit (ih1 (and1 hn)) (ih2 (and2 hn))
  | or_nil s => intro _; exact .or_nil s
  | or_ok _ ih => intro hn; exact .or_ok (ih (or1 hn))
  | or_crit _ ih => intro hn; exact .or_crit (ih (or1 hn))
  | or_next _ _ ih1 ih2 => intro hn; exact .or_next (ih1 (or1 hn)) (ih2 (or2 hn))
  | not_ok _ ih => intro hn; exact .not_ok (ih fun h => hn (.not h))
  | not_fail _ ih => intro hn; exact .not_fail (ih fun h => hn (.not h))
  | not_crit _ ih => intro hn; exact .not_crit (ih fun h => hn (.not h))
  | rep_full e mn s => intro _; exact .rep_full e mn s
  | rep_more hm _ _ ih1 ih2 => intro hn; exact .rep_more hm (ih1 (rep1 hn)) (ih2 (rep2 hn))
  | rep_stop hm _ ih => intro hn; exact .rep_stop hm (ih (rep1 hn))
  | rep_few hm h0 _ ih => intro hn; exact .rep_few hm h0 (ih (rep1 hn))
  | rep_crit hm _ ih => intro hn; exact .rep_crit hm (ih (rep1 hn))
  | rep_more_fail hm _ _ ih1 ih2 => intro hn; exact .rep_more_fail hm (ih1 (rep1 hn)) (ih2 (rep2 hn))
  | rep_more_crit hm _ _ ih1 ih2 => intro hn; exact .rep_more_crit hm (ih1 (rep1 hn)) (ih2 (rep2 hn))
  | call_ok hg _ ih => intro hn; exact .call_ok (hag _ (name hn) ▸ hg) (ih (hno _ _ (name hn) hg))
  | call_fail hg _ ih => intro hn; exact .call_fail (hag _ (name hn) ▸ hg) (ih (hno _ _ (name hn) hg))
  | call_crit hg _ ih => intro hn; exact .call_crit (hag _ (name hn) ▸ hg) (ih (hno _ _ (name hn) hg))
  | call_missing hg => intro hn; exact .call_missing (hag _ (name hn) ▸ hg)

/-! ### `(!x .)*` -/

/-- the characters, each as a value -/
def charNodes (u : Str) : List Node := u.map fun c => .val [c]

section
variable {G : Str → Option Expr} {x : Expr}

/-- here it matches -/
def MatchesAt (G : Str → Option Expr) (x : Expr) (s : Str) : Prop := ∃ r ns, Peg G x s (.ok r ns)

/-- here it does not -/
def MissesAt (G : Str → Option Expr) (x : Expr) (s : Str) : Prop := Peg G x s .fail ∨ ∃ w q, Peg G x s (.crit w q)

theorem not_hits {s} (h : MissesAt G x s) : ¬ MatchesAt G x s := by
  rintro ⟨r, ns, h'⟩
  rcases h with h | ⟨w, q, h⟩ <;> cases peg_det h h'

theorem not_of_misses {s} (h : MissesAt G x s) : Peg G (.not x) s (.ok s []) := by
  rcases h with h | ⟨w, q, h⟩
  · exact .not_fail h
  · exact .not_crit h

theorem not_inv {s o} (h : Peg G (.not x) s o) : (o = .fail ∧ MatchesAt G x s) ∨ (o = .ok s [] ∧ MissesAt G x s) := by
  cases h with
  | not_ok h => exact Or.inl ⟨rfl, _, _, h⟩
  | not_fail h => exact Or.inr ⟨rfl, Or.inl h⟩
  | not_crit h => exact Or.inr ⟨rfl, Or.inr ⟨_, _, h⟩⟩

/-- `!x .` -/
def butExpr (x : Expr) : Expr := .and [.not x, .simple .dot]

theorem but_inv {s o} (h : Peg G (butExpr x) s o) : (o = .fail ∧ (MatchesAt G x s ∨ s = [] ∧ MissesAt G x s)) ∨
    ∃ c r, s = c :: r ∧ o = .ok r [.val [c]] ∧ MissesAt G x s := by
  unfold butExpr at h
  cases h with
  | and_ok h1 h2 =>
    rcases not_inv h1 with ⟨h, _⟩ | ⟨h, hm⟩
    · cases h
    · cases h
      cases h2 with
      | and_ok h2 h3 =>
        cases h2 with
        | dot_ok c r => cases h3; exact Or.inr ⟨_, _, rfl, rfl, hm⟩
  | and_fail h1 =>
    rcases not_inv h1 with ⟨_, h⟩ | ⟨h, _⟩
    · exact Or.inl ⟨rfl, Or.inl h⟩
    · cases h
  | and_crit h1 => rcases not_inv h1 with ⟨h, _⟩ | ⟨h, _⟩ <;> cases h
  | and_tail_fail h1 h2 =>
    rcases not_inv h1 with ⟨h, _⟩ | ⟨h, hm⟩
    · cases h
    · cases h
      cases h2 with
      | and_fail h2 => cases h2; exact Or.inl ⟨rfl, Or.inr ⟨rfl, hm⟩⟩
      | and_tail_fail _ h3 => cases h3
  | and_tail_crit h1 h2 =>
    rcases not_inv h1 with ⟨h, _⟩ | ⟨h, hm⟩
    · cases h
    · cases h
      cases h2 with
      | and_crit h2 => cases h2
      | and_tail_crit _ h3 => cases h3

theorem but_fail {s} (h : MatchesAt G x s ∨ s = [] ∧ MissesAt G x s) : Peg G (butExpr x) s .fail := by
  rcases h with ⟨r, ns, h⟩ | ⟨rfl, h⟩
  · exact .and_fail (.not_ok h)
  · exact .and_tail_fail (not_of_misses h) (.and_fail .dot_end)

theorem but_ok {c r} (h : MissesAt G x (c :: r)) : Peg G (butExpr x) (c :: r) (.ok r [.val [c]]) :=
  .and_ok (not_of_misses h) (.and_ok (.dot_ok c r) (.and_nil _))

/-- nowhere in `u`, with `v` after it -/
def NowhereIn (G : Str → Option Expr) (x : Expr) (u v : Str) : Prop := ∀ u1 u2, u = u1 ++ u2 → u2 ≠ [] → MissesAt G x (u2 ++ v)

theorem free_nil {v} : NowhereIn G x [] v := fun u1 u2 h hn => by
  rw [(List.append_eq_nil_iff.1 h.symm).2] at hn; exact absurd rfl hn

theorem free_cons {c u v} (h1 : MissesAt G x (c :: u ++ v)) (h2 : NowhereIn G x u v) : NowhereIn G x (c :: u) v := by
  intro u1 u2 h hn
  cases u1 with
  | nil => rw [List.nil_append] at h; subst h; exact h1
  | cons d u1 =>
    rw [List.cons_append, List.cons.injEq] at h
    exact h2 u1 u2 h.2 hn

theorem free_of_cons {c u v} (h : NowhereIn G x (c :: u) v) : MissesAt G x (c :: u ++ v) ∧ NowhereIn G x u v :=
  ⟨h [] (c :: u) rfl (by simp), fun u1 u2 h' hn => h (c :: u1) u2 (by rw [h']; rfl) hn⟩

/-- it stops where `x` matches, or at the end -/
theorem skip_inv : ∀ {s o}, Peg G (.rep (butExpr x) 0 none) s o → ∃ u v, s = u ++ v ∧ o = .ok v (charNodes u) ∧
    NowhereIn G x u v ∧ (MatchesAt G x v ∨ v = [] ∧ MissesAt G x v) := by
  intro s
  induction s with
  | nil =>
    intro o h
    cases h with
    | rep_more _ h1 _ => rcases but_inv h1 with ⟨h, _⟩ | ⟨c, r, h, _⟩ <;> cases h
    | rep_stop _ h1 =>
      rcases but_inv h1 with ⟨_, h⟩ | ⟨c, r, h, _⟩
      · exact ⟨[], [], rfl, rfl, free_nil, h⟩
      · cases h
    | rep_few _ h0 => exact absurd h0 (Nat.lt_irrefl _)
    | rep_crit _ h1 => rcases but_inv h1 with ⟨h, _⟩ | ⟨c, r, h, _⟩ <;> cases h
    | rep_more_fail _ h1 _ => rcases but_inv h1 with ⟨h, _⟩ | ⟨c, r, h, _⟩ <;> cases h
    | rep_more_crit _ h1 _ => rcases but_inv h1 with ⟨h, _⟩ | ⟨c, r, h, _⟩ <;> cases h
  | cons c s ih =>
    intro o h
    cases h with
    | rep_more _ h1 h2 =>
      rcases but_inv h1 with ⟨h, _⟩ | ⟨c', r, h, h', hm⟩
      · cases h
      · cases h
        cases h'
        obtain ⟨u, v, rfl, he, hf, hv⟩ := ih h2
        cases he
        exact ⟨c :: u, _, rfl, rfl, free_cons hm hf, hv⟩
    | rep_stop _ h1 =>
      rcases but_inv h1 with ⟨_, h⟩ | ⟨c, r, h, h', _⟩
      · exact ⟨[], c :: s, rfl, rfl, free_nil, h⟩
      · cases h'
    | rep_few _ h0 => exact absurd h0 (Nat.lt_irrefl _)
    | rep_crit _ h1 => rcases but_inv h1 with ⟨h, _⟩ | ⟨c, r, h, h', _⟩ <;> simp only [reduceCtorEq] at *
    | rep_more_fail _ h1 h2 =>
      rcases but_inv h1 with ⟨h, _⟩ | ⟨c', r, h, h', hm⟩
      · cases h
      · cases h
        cases h'
        obtain ⟨u, v, _, he, _⟩ := ih h2
        cases he
    | rep_more_crit _ h1 h2 =>
      rcases but_inv h1 with ⟨h, _⟩ | ⟨c', r, h, h', hm⟩
      · cases h
      · cases h
        cases h'
        obtain ⟨u, v, _, he, _⟩ := ih h2
        cases he

theorem skip_ok : ∀ {u v}, NowhereIn G x u v → (MatchesAt G x v ∨ v = [] ∧ MissesAt G x v) →
    Peg G (.rep (butExpr x) 0 none) (u ++ v) (.ok v (charNodes u))
  | [], _, _, hv => .rep_stop (by simp) (but_fail hv)
  | c :: u, v, hf, hv => by
    obtain ⟨h1, h2⟩ := free_of_cons hf
    exact .rep_more (by simp) (but_ok h1) (skip_ok h2 hv)

end

end DP
