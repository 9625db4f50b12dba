/-
What expressions derive (Spec/ContextFree.lean), case by case.
-/
import Verif.Spec.ContextFree
import Verif.Spec.Tree

namespace DP
open Spec

section
variable {G : Str → Option Expr}

theorem derives_lit {l u ns} : Gen G (.simple (.literal l)) u ns ↔ u = l ∧ ns = [.val l] :=
  ⟨fun h => by cases h; exact ⟨rfl, rfl⟩, fun ⟨h, h'⟩ => by subst h h'; exact .lit _⟩

theorem derives_cls {cs rs u ns} : Gen G (.simple (.mtch cs rs)) u ns ↔ ∃ c, InClass cs rs c ∧ u = [c] ∧ ns = [.val [c]] :=
  ⟨fun h => by cases h with | cls hc => exact ⟨_, hc, rfl, rfl⟩, fun ⟨c, hc, h, h'⟩ => by subst h h'; exact .cls hc⟩

theorem derives_nil {u ns} : Gen G (.and []) u ns ↔ u = [] ∧ ns = [] :=
  ⟨fun h => by cases h; exact ⟨rfl, rfl⟩, fun ⟨h, h'⟩ => by subst h h'; exact .nil⟩

theorem derives_cons {e es u ns} : Gen G (.and (e :: es)) u ns ↔ ∃ a b ms ms', Gen G e a ms ∧ Gen G (.and es) b ms' ∧ u = a ++ b ∧ ns = ms ++ ms' :=
  ⟨fun h => by cases h with | cons h h' => exact ⟨_, _, _, _, h, h', rfl, rfl⟩,
    fun ⟨a, b, ms, ms', h1, h2, h, h'⟩ => by subst h h'; exact .cons h1 h2⟩

theorem derives_or {es u ns} : Gen G (.or es) u ns ↔ ∃ e ∈ es, Gen G e u ns :=
  ⟨fun h => by cases h with | or hm h => exact ⟨_, hm, h⟩, fun ⟨_, hm, h⟩ => .or hm h⟩

theorem derives_call {n e u ns} (hg : G n = some e) : Gen G (.ruleName n) u ns ↔ ∃ ms, Gen G e u ms ∧ ns = [.rule n ms] := by
  constructor
  · intro h
    cases h with
    | call hg' h =>
      rw [hg] at hg'
      cases hg'
      exact ⟨_, h, rfl⟩
  · rintro ⟨ms, h, rfl⟩
    exact .call hg h

theorem derives_opt {e u ns} : Gen G (.rep e 0 (some 1)) u ns ↔ (u = [] ∧ ns = []) ∨ Gen G e u ns := by
  constructor
  · intro h
    cases h with
    | none => exact .inl ⟨rfl, rfl⟩
    | more _ h h' =>
      cases h' with
      | none => rw [List.append_nil, List.append_nil]; exact .inr h
      | full => rw [List.append_nil, List.append_nil]; exact .inr h
      | more h0 => exact absurd rfl h0
  · rintro (⟨rfl, rfl⟩ | h)
    · exact .none _ _
    · have := Gen.more (mn := 0) (mx := some 1) (by simp) h (.full e _)
      rwa [List.append_nil, List.append_nil] at this

theorem derives_star_nil {e} : Gen G (.rep e 0 none) [] [] := .none _ _

theorem derives_star_cons {e u ns v ms} (h : Gen G e u ns) (h' : Gen G (.rep e 0 none) v ms) : Gen G (.rep e 0 none) (u ++ v) (ns ++ ms) :=
  .more (by simp) h h'

/-- induction over the rounds -/
theorem derives_star {e : Expr} {P : Str → List Node → Prop} (h0 : P [] [])
    (hs : ∀ u ns v ms, Gen G e u ns → Gen G (.rep e 0 none) v ms → P v ms → P (u ++ v) (ns ++ ms)) {u ns} (h : Gen G (.rep e 0 none) u ns) : P u ns := by
  generalize hx : Expr.rep e 0 none = x at h
  induction h with
  | none => exact h0
  | more _ h1 h2 _ ih2 => cases hx; exact hs _ _ _ _ h1 h2 (ih2 rfl)
  | full => cases hx
  | _ => cases hx

theorem derives_plus {e u ns} : Gen G (.rep e 1 none) u ns ↔ ∃ a b ms ms', Gen G e a ms ∧ Gen G (.rep e 0 none) b ms' ∧ u = a ++ b ∧ ns = ms ++ ms' := by
  constructor
  · intro h
    cases h with
    | more _ h h' => exact ⟨_, _, _, _, h, h', rfl, rfl⟩
  · rintro ⟨a, b, ms, ms', h, h', rfl, rfl⟩
    exact .more (by simp) h h'

/-- what is derived character by character -/
theorem derives_chars {e : Expr} {P : Char → Prop} {f : Char → Node} (he : ∀ u ns, Gen G e u ns ↔ ∃ c, P c ∧ u = [c] ∧ ns = [f c]) {u ns} :
    Gen G (.rep e 0 none) u ns ↔ (∀ c ∈ u, P c) ∧ ns = u.map f := by
  constructor
  · intro h
    refine derives_star (P := fun u ns => (∀ c ∈ u, P c) ∧ ns = u.map f) ⟨by simp, rfl⟩ ?_ h
    intro u ns v ms h1 _ ih
    obtain ⟨c, hc, rfl, rfl⟩ := (he _ _).1 h1
    refine ⟨fun x hx => ?_, by rw [ih.2]; rfl⟩
    rcases List.mem_append.1 hx with hx | hx
    · rw [List.mem_singleton.1 hx]; exact hc
    · exact ih.1 x hx
  · rintro ⟨h, rfl⟩
    induction u with
    | nil => exact derives_star_nil
    | cons c u ih => exact derives_star_cons ((he [c] [f c]).2 ⟨c, h c (by simp), rfl, rfl⟩) (ih fun x hx => h x (by simp [hx]))

theorem derives_chars1 {e : Expr} {P : Char → Prop} {f : Char → Node} (he : ∀ u ns, Gen G e u ns ↔ ∃ c, P c ∧ u = [c] ∧ ns = [f c]) {u ns} :
    Gen G (.rep e 1 none) u ns ↔ u ≠ [] ∧ (∀ c ∈ u, P c) ∧ ns = u.map f := by
  rw [derives_plus]
  constructor
  · rintro ⟨a, b, ms, ms', h, h', rfl, rfl⟩
    obtain ⟨c, hc, rfl, rfl⟩ := (he _ _).1 h
    obtain ⟨h1, rfl⟩ := (derives_chars he).1 h'
    refine ⟨by simp, fun x hx => ?_, rfl⟩
    rcases List.mem_append.1 hx with hx | hx
    · rw [List.mem_singleton.1 hx]; exact hc
    · exact h1 x hx
  · rintro ⟨h0, h, rfl⟩
    cases u with
    | nil => exact absurd rfl h0
    | cons c u =>
      exact ⟨[c], u, [f c], u.map f, (he _ _).2 ⟨c, h c (by simp), rfl, rfl⟩, (derives_chars he).2 ⟨fun x hx => h x (by simp [hx]), rfl⟩, rfl, rfl⟩

theorem derived_text_append (l l' : List Node) : textL (l ++ l') = textL l ++ textL l' := by
  unfold textL
  induction l with
  | nil => rfl
  | cons n l ih => simp only [List.cons_append, leavesL, List.flatten_append, ih, List.append_assoc]

/-- without `EOF` the nodes spell what is derived -/
theorem derives_text (hp : ∀ n e, G n = some e → Plain G e) {e u ns} (h : Gen G e u ns) : Plain G e → textL ns = u := by
  induction h with
  | lit l => intro _; simp [textL, leavesL, leaves]
  | cls => intro _; simp [textL, leavesL, leaves]
  | dot => intro _; simp [textL, leavesL, leaves]
  | eof => intro h; cases h
  | nil => intro _; rfl
  | cons _ _ ih1 ih2 =>
    intro h
    cases h with
    | and h => rw [derived_text_append, ih1 (h _ (by simp)), ih2 (.and fun e he => h e (by simp [he]))]
  | or hm _ ih =>
    intro h
    cases h with
    | or h => exact ih (h _ hm)
  | not => intro _; rfl
  | none => intro _; rfl
  | full => intro _; rfl
  | more _ _ _ ih1 ih2 =>
    intro h
    cases h with
    | rep h => rw [derived_text_append, ih1 h, ih2 (.rep h)]
  | call hg _ ih =>
    intro _
    have := ih (hp _ _ hg)
    simpa [textL, leavesL, leaves] using this

end

end DP
