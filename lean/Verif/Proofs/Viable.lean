/-
What comes before a fault is the beginning of something derived.
-/
import Verif.Spec.Viable
import Verif.Spec.Report
import Verif.Proofs.Report
import Verif.Proofs.ContextFree

namespace DP
open Spec

section
variable {G : Str → Option Expr} {A : Char → Prop}

/-- `u`, but for the last character perhaps, begins a derived text, and the rest of that text is of the kind `A` -/
def Viable (A : Char → Prop) (G : Str → Option Expr) (e : Expr) (u : Str) : Prop :=
  ∃ p v ns, Gen G e (p ++ v) ns ∧ (∀ c ∈ v, A c) ∧ (u = p ∨ ∃ c, u = p ++ [c])

/-- all parts derive something -/
def Rich (A : Char → Prop) (G : Str → Option Expr) (e : Expr) : Prop := ∀ x, Sub x e → ∃ u ns, Gen G x u ns ∧ ∀ c ∈ u, A c

theorem all_append {u v : Str} (hu : ∀ c ∈ u, A c) (hv : ∀ c ∈ v, A c) : ∀ c ∈ u ++ v, A c := by
  intro c hc
  rcases List.mem_append.1 hc with hc | hc
  · exact hu c hc
  · exact hv c hc

theorem rich_head {e es} (h : Rich A G (.and (e :: es))) : Rich A G e := fun x hx => h x (.and (by simp) hx)

theorem rich_tail {e es} (h : Rich A G (.and (e :: es))) : Rich A G (.and es) := by
  intro x hx
  cases hx with
  | refl =>
    obtain ⟨u, ns, hg, ha⟩ := h _ (.refl _)
    cases hg with
    | cons h1 h2 => exact ⟨_, _, h2, fun c hc => ha c (List.mem_append_right _ hc)⟩
  | and hm hs => exact h x (.and (by simp [hm]) hs)

theorem rich_or_head {e es} (h : Rich A G (.or (e :: es))) : Rich A G e := fun x hx => h x (.or (by simp) hx)

theorem rich_or_tail {e e' es} (h : Rich A G (.or (e :: e' :: es))) : Rich A G (.or (e' :: es)) := by
  intro x hx
  cases hx with
  | refl =>
    obtain ⟨u, ns, hg, ha⟩ := h e' (.or (by simp) (.refl _))
    exact ⟨_, _, .or (by simp) hg, ha⟩
  | or hm hs => exact h x (.or (List.mem_cons_of_mem _ hm) hs)

theorem rich_body {e mn mx} (h : Rich A G (.rep e mn mx)) : Rich A G e := fun x hx => h x (.rep hx)

theorem rich_rep {e} (h : Rich A G e) : ∀ mn mx, Rich A G (.rep e mn mx) := by
  have key : ∀ mn mx, ∃ u ns, Gen G (.rep e mn mx) u ns ∧ ∀ c ∈ u, A c := by
    intro mn
    induction mn with
    | zero => intro mx; exact ⟨_, _, .none e mx, by simp⟩
    | succ mn ih =>
      intro mx
      by_cases hm : mx = some 0
      · subst hm; exact ⟨_, _, .full e _, by simp⟩
      · obtain ⟨u, ns, hg, ha⟩ := h _ (.refl _)
        obtain ⟨v, ms, h', hb⟩ := ih (mx.map (· - 1))
        exact ⟨_, _, .more hm hg h', all_append ha hb⟩
  intro mn mx x hx
  cases hx with
  | refl => exact key mn mx
  | rep hs => exact h x hs

theorem viable_nil {e} (h : Rich A G e) : Viable A G e [] := by
  obtain ⟨u, ns, hg, ha⟩ := h _ (.refl _)
  exact ⟨[], u, ns, hg, ha, .inl rfl⟩

theorem viable_one {e} (c : Char) (h : Rich A G e) : Viable A G e [c] := by
  obtain ⟨u, ns, hg, ha⟩ := h _ (.refl _)
  exact ⟨[], u, ns, hg, ha, .inr ⟨c, rfl⟩⟩

theorem viable_head {e es u} (h : Viable A G e u) (hr : Rich A G (.and es)) : Viable A G (.and (e :: es)) u := by
  obtain ⟨p, v, ns, hg, ha, hu⟩ := h
  obtain ⟨w, ms, hw, hb⟩ := hr _ (.refl _)
  exact ⟨p, v ++ w, _, by rw [← List.append_assoc]; exact .cons hg hw, all_append ha hb, hu⟩

theorem viable_tail {e es u u' ns} (h : Gen G e u ns) (h' : Viable A G (.and es) u') : Viable A G (.and (e :: es)) (u ++ u') := by
  obtain ⟨p, v, ms, hg, ha, hu⟩ := h'
  refine ⟨u ++ p, v, _, by rw [List.append_assoc]; exact .cons h hg, ha, ?_⟩
  rcases hu with rfl | ⟨c, rfl⟩
  · exact .inl rfl
  · exact .inr ⟨c, by rw [List.append_assoc]⟩

theorem viable_first {e mn mx u} (hm : mx ≠ some 0) (h : Viable A G e u) (hr : Rich A G e) : Viable A G (.rep e mn mx) u := by
  obtain ⟨p, v, ns, hg, ha, hu⟩ := h
  obtain ⟨w, ms, hw, hb⟩ := rich_rep hr (mn - 1) (mx.map (· - 1)) _ (.refl _)
  exact ⟨p, v ++ w, _, by rw [← List.append_assoc]; exact .more hm hg hw, all_append ha hb, hu⟩

theorem viable_later {e mn mx u u' ns} (hm : mx ≠ some 0) (h : Gen G e u ns) (h' : Viable A G (.rep e (mn - 1) (mx.map (· - 1))) u') :
    Viable A G (.rep e mn mx) (u ++ u') := by
  obtain ⟨p, v, ms, hg, ha, hu⟩ := h'
  refine ⟨u ++ p, v, _, by rw [List.append_assoc]; exact .more hm h hg, ha, ?_⟩
  rcases hu with rfl | ⟨c, rfl⟩
  · exact .inl rfl
  · exact .inr ⟨c, by rw [List.append_assoc]⟩

theorem viable_or {es e u} (hm : e ∈ es) (h : Viable A G e u) : Viable A G (.or es) u := by
  obtain ⟨p, v, ns, hg, h'⟩ := h
  exact ⟨p, v, ns, .or hm hg, h'⟩

theorem viable_or_tail {e es u} (h : Viable A G (.or es) u) : Viable A G (.or (e :: es)) u := by
  obtain ⟨p, v, ns, hg, h'⟩ := h
  cases hg with
  | or hm hg => exact ⟨p, v, ns, .or (List.mem_cons_of_mem _ hm) hg, h'⟩

theorem viable_call {n e u} (hg : G n = some e) (h : Viable A G e u) : Viable A G (.ruleName n) u := by
  obtain ⟨p, v, ns, h1, h'⟩ := h
  exact ⟨p, v, _, .call hg h1, h'⟩

theorem ok_gen {tr e j s r ns j'} (h : Reports G tr e j s (.ok r ns j')) : ∃ u, s = u ++ r ∧ Gen G e u ns :=
  gen_of_peg (reports_peg h) _ _ rfl

/-- what a report says of the text before a fault -/
def Placed (A : Char → Prop) (G : Str → Option Expr) (e : Expr) (j : Journal) (s : Str) : Report → Prop
  | .bad f => ∃ u, s = u ++ f.rest ∧ Viable A G e u
  | .ok _ _ j' => ∀ f, j'.kept = some f → j.kept = some f ∨ ∃ u, s = u ++ f.rest ∧ Viable A G e u

theorem placed {tr e j s o} (hG : ∀ n e, G n = some e → Rich A G e) (h : Reports G tr e j s o) :
    Rich A G e → Placed A G e j s o := by
  induction h with
  | lit_ok | class_ok | dot_ok | eof_ok | and_nil | rep_full => intro _ f hf; exact .inl hf
  | lit_differs a c b d r j _ =>
    intro hr
    refine ⟨a ++ [d], by simp, a, c :: b, _, .lit _, ?_, .inr ⟨d, rfl⟩⟩
    obtain ⟨u, ns, hg, ha⟩ := hr _ (.refl _)
    cases hg with
    | lit => exact fun x hx => ha x (List.mem_append_right _ hx)
  | lit_short a c b j =>
    intro hr
    refine ⟨a, by simp, a, c :: b, _, .lit _, ?_, .inl rfl⟩
    obtain ⟨u, ns, hg, ha⟩ := hr _ (.refl _)
    cases hg with
    | lit => exact fun x hx => ha x (List.mem_append_right _ hx)
  | class_differs cs rs c r j _ => intro hr; exact ⟨[c], rfl, viable_one c hr⟩
  | eof_differs c r j => intro hr; exact ⟨[c], rfl, viable_one c hr⟩
  | class_end | dot_end => intro hr; exact ⟨[], rfl, viable_nil hr⟩
  | error m s j => intro hr; exact ⟨[], rfl, viable_nil hr⟩
  | and_ok h1 _ ih ih' =>
    intro hr f hf
    obtain ⟨u, hu, hg⟩ := ok_gen h1
    rcases ih' (rich_tail hr) f hf with hf | ⟨u', hu', hv⟩
    · rcases ih (rich_head hr) f hf with hf | ⟨u', hu', hv⟩
      · exact .inl hf
      · exact .inr ⟨u', hu', viable_head hv (rich_tail hr)⟩
    · exact .inr ⟨u ++ u', by rw [hu, hu', List.append_assoc], viable_tail hg hv⟩
  | and_bad _ ih =>
    intro hr
    obtain ⟨u, hu, hv⟩ := ih (rich_head hr)
    exact ⟨u, hu, viable_head hv (rich_tail hr)⟩
  | and_tail_bad h1 _ _ ih' =>
    intro hr
    obtain ⟨u, hu, hg⟩ := ok_gen h1
    obtain ⟨u', hu', hv⟩ := ih' (rich_tail hr)
    exact ⟨u ++ u', by rw [hu, hu', List.append_assoc], viable_tail hg hv⟩
  | or_nil s j => intro hr; exact ⟨[], rfl, viable_nil hr⟩
  | or_ok _ ih =>
    intro hr f hf
    rcases ih (rich_or_head hr) f hf with hf | ⟨u, hu, hv⟩
    · exact .inl hf
    · exact .inr ⟨u, hu, viable_or (by simp) hv⟩
  | or_crit _ _ ih | or_last _ _ ih =>
    intro hr
    obtain ⟨u, hu, hv⟩ := ih (rich_or_head hr)
    exact ⟨u, hu, viable_or (by simp) hv⟩
  | or_next_ok _ _ _ _ ih' =>
    intro hr f hf
    rcases ih' (rich_or_tail hr) f hf with hf | ⟨u, hu, hv⟩
    · exact .inl hf
    · exact .inr ⟨u, hu, viable_or_tail hv⟩
  | or_next_bad _ _ _ ih ih' =>
    intro hr
    unfold worse
    split
    · obtain ⟨u, hu, hv⟩ := ih (rich_or_head hr)
      exact ⟨u, hu, viable_or (by simp) hv⟩
    · obtain ⟨u, hu, hv⟩ := ih' (rich_or_tail hr)
      exact ⟨u, hu, viable_or_tail hv⟩
  | not_ok _ _ => intro hr; exact ⟨[], rfl, viable_nil hr⟩
  | not_bad _ _ => intro hr f hf; exact .inl hf
  | rep_more hm h1 _ ih ih' =>
    intro hr f hf
    obtain ⟨u, hu, hg⟩ := ok_gen h1
    rcases ih' (rich_rep (rich_body hr) _ _) f hf with hf | ⟨u', hu', hv⟩
    · rcases ih (rich_body hr) f hf with hf | ⟨u', hu', hv⟩
      · exact .inl hf
      · exact .inr ⟨u', hu', viable_first hm hv (rich_body hr)⟩
    · exact .inr ⟨u ++ u', by rw [hu, hu', List.append_assoc], viable_later hm hg hv⟩
  | rep_stop hm _ _ ih =>
    intro hr f hf
    cases hf
    obtain ⟨u, hu, hv⟩ := ih (rich_body hr)
    exact .inr ⟨u, hu, viable_first hm hv (rich_body hr)⟩
  | rep_crit hm _ _ ih | rep_few hm _ _ ih =>
    intro hr
    obtain ⟨u, hu, hv⟩ := ih (rich_body hr)
    exact ⟨u, hu, viable_first hm hv (rich_body hr)⟩
  | rep_more_bad hm h1 _ _ ih' =>
    intro hr
    obtain ⟨u, hu, hg⟩ := ok_gen h1
    obtain ⟨u', hu', hv⟩ := ih' (rich_rep (rich_body hr) _ _)
    exact ⟨u ++ u', by rw [hu, hu', List.append_assoc], viable_later hm hg hv⟩
  | call_ok hg _ ih =>
    intro hr f hf
    rcases ih (hG _ _ hg) f hf with hf | ⟨u, hu, hv⟩
    · exact .inl hf
    · exact .inr ⟨u, hu, viable_call hg hv⟩
  | call_bad hg _ ih =>
    intro hr
    obtain ⟨u, hu, hv⟩ := ih (hG _ _ hg)
    exact ⟨u, hu, viable_call hg hv⟩
  | call_missing hg => intro hr; exact ⟨[], rfl, viable_nil hr⟩

theorem rejects_viable {tr s f} (hG : ∀ n e, G n = some e → Rich A G e) (hm : Rich A G (.ruleName c!"main")) (h : Rejects G tr s f) :
    ∃ u, s = u ++ f.rest ∧ Viable A G (.ruleName c!"main") u := by
  cases h with
  | failed h => exact placed hG h hm
  | kept h _ hk =>
    rcases placed hG h hm _ hk with h | h
    · cases h
    · exact h
  | unread h _ _ =>
    obtain ⟨u, hu, hg⟩ := ok_gen h
    exact ⟨u, hu, u, [], _, by rwa [List.append_nil], by simp, .inl rfl⟩

end
end DP
