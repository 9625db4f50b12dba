import Verif.Proofs.Search
import Verif.Props.PegFront

/-!
# C89: (!x .)* x finds the first place where x matches

The usual way to look for something with a PEG grammar. It is stated with `parse` alone: where an expression matches is where a text
is accepted by rules with `main = x .*`.
-/

namespace DP
open Spec

/-- `(!x .)* x .*` -/
def findExpr (x : Expr) : Expr := .and [.rep (butExpr x) 0 none, x, .rep (.simple .dot) 0 none]

/-- `x .*` -/
def startExpr (x : Expr) : Expr := .and [x, .rep (.simple .dot) 0 none]

/-- `(!x .)*` -/
def withoutExpr (x : Expr) : Expr := .rep (butExpr x) 0 none

/-- nothing but `main` refers to `main` -/
def MainApart (R : SetOfRules) : Prop := ∀ n e, n ≠ c!"main" → grammar R n = some e → ¬ Refs e c!"main"

section
variable {R : SetOfRules} {x : Expr} {s : Str}

theorem but_effective (x : Expr) : effective (butExpr x) = butExpr (effective x) := rfl
theorem find_effective (x : Expr) : effective (findExpr x) = findExpr (effective x) := rfl
theorem start_effective (x : Expr) : effective (startExpr x) = startExpr (effective x) := rfl
theorem without_effective (x : Expr) : effective (withoutExpr x) = withoutExpr (effective x) := rfl

/-- the rules with this `main` -/
theorem denotes_main (R : SetOfRules) (e : Expr) : denotes (R.add c!"main" e) c!"main" = some (effective e) := by
  unfold denotes
  rw [C22_add, if_pos rfl]
  rfl

theorem denotes_other (R : SetOfRules) (e : Expr) {n} (h : n ≠ c!"main") : denotes (R.add c!"main" e) n = denotes R n := by
  unfold denotes
  rw [C22_add, if_neg h]

/-- what `main` is does not matter for `x` -/
theorem same_x (hR : MainApart R) (hx : ¬ Refs x c!"main") (e e' : Expr) {s o} :
    Peg (denotes (R.add c!"main" e)) (effective x) s o ↔ Peg (denotes (R.add c!"main" e')) (effective x) s o := by
  have key : ∀ e e' : Expr, ∀ {s o}, Peg (denotes (R.add c!"main" e)) (effective x) s o →
      Peg (denotes (R.add c!"main" e')) (effective x) s o := by
    intro e e' s o h
    refine peg_apart (k := c!"main") (fun n hn => by rw [denotes_other R e hn, denotes_other R e' hn]) ?_ h fun h => hx (refs_effective h)
    intro n b hn hb hr
    rw [denotes_other R e hn] at hb
    unfold denotes at hb
    rw [Option.map_eq_some_iff] at hb
    obtain ⟨b', h1, rfl⟩ := hb
    exact hR n b' hn h1 (refs_effective hr)
  exact ⟨key e e', key e' e⟩

theorem hits_x (hR : MainApart R) (hx : ¬ Refs x c!"main") (e e' : Expr) {s} :
    MatchesAt (denotes (R.add c!"main" e)) (effective x) s ↔ MatchesAt (denotes (R.add c!"main" e')) (effective x) s := by
  unfold MatchesAt
  simp only [same_x hR hx e e']

theorem misses_x (hR : MainApart R) (hx : ¬ Refs x c!"main") (e e' : Expr) {s} :
    MissesAt (denotes (R.add c!"main" e)) (effective x) s ↔ MissesAt (denotes (R.add c!"main" e')) (effective x) s := by
  unfold MissesAt
  simp only [same_x hR hx e e']

theorem dots_det {G s o} (h : Peg G (.rep (.simple .dot) 0 none) s o) : o = .ok [] (charNodes s) :=
  peg_det h (dots_all s)

/-- what `main` returns -/
theorem main_peg {e : Expr} {o} : Peg (denotes (R.add c!"main" e)) (.ruleName c!"main") s o ↔
    ∃ o', Peg (denotes (R.add c!"main" e)) (effective e) s o' ∧ o = match o' with
      | .ok r ns => .ok r [.rule c!"main" ns]
      | .fail => .fail
      | .crit w q => .crit w q := by
  constructor
  · intro h
    cases h with
    | call_ok hg h => rw [denotes_main] at hg; cases hg; exact ⟨_, h, rfl⟩
    | call_fail hg h => rw [denotes_main] at hg; cases hg; exact ⟨_, h, rfl⟩
    | call_crit hg h => rw [denotes_main] at hg; cases hg; exact ⟨_, h, rfl⟩
    | call_missing hg => rw [denotes_main] at hg; cases hg
  · rintro ⟨o', h, rfl⟩
    cases o' with
    | ok r ns => exact .call_ok (denotes_main R e) h
    | fail => exact .call_fail (denotes_main R e) h
    | crit w q => exact .call_crit (denotes_main R e) h

theorem addMain_ok {e : Expr} (ha : Ascii s) {t} : parse s (R.add c!"main" e) = .ok t ↔
    ∃ ns, Peg (denotes (R.add c!"main" e)) (effective e) s (.ok [] ns) ∧ t = .rule c!"main" ns := by
  rw [C02_parse_ok_iff_peg_any_bounds _ t ha, main_peg]
  constructor
  · rintro ⟨o, h, he⟩
    cases o with
    | ok r ns => simp only [Outcome.ok.injEq, List.cons.injEq, and_true] at he; exact ⟨ns, he.1 ▸ h, he.2⟩
    | _ => cases he
  · rintro ⟨ns, h, rfl⟩
    exact ⟨_, h, rfl⟩

theorem addMain_err {e : Expr} (ha : Ascii s) : (∃ er, parse s (R.add c!"main" e) = .err er) ↔
    ∃ o, Peg (denotes (R.add c!"main" e)) (effective e) s o ∧ ∀ ns, o ≠ .ok [] ns := by
  rw [C02_parse_err_iff_peg_any_bounds ha]
  constructor
  · rintro ⟨o, h, hn⟩
    obtain ⟨o', h', rfl⟩ := main_peg.1 h
    refine ⟨o', h', ?_⟩
    rintro ns rfl
    exact hn _ rfl
  · rintro ⟨o, h, hn⟩
    refine ⟨_, main_peg.2 ⟨o, h, rfl⟩, ?_⟩
    intro ns h'
    cases o with
    | ok r ns' => simp only [Outcome.ok.injEq] at h'; exact hn ns' (by rw [h'.1])
    | _ => cases h'

theorem start_inv {G o} (h : Peg G (startExpr x) s o) : (∃ r ns, Peg G x s (.ok r ns) ∧ o = .ok [] (ns ++ charNodes r)) ∨
    (MissesAt G x s ∧ ∀ ns, o ≠ .ok [] ns) := by
  unfold startExpr at h
  cases h with
  | and_ok h1 h2 =>
    cases h2 with
    | and_ok h2 h3 =>
      cases dots_det h2
      cases h3
      exact Or.inl ⟨_, _, h1, by rw [List.append_nil]⟩
  | and_fail h1 => exact Or.inr ⟨Or.inl h1, by simp⟩
  | and_crit h1 => exact Or.inr ⟨Or.inr ⟨_, _, h1⟩, by simp⟩
  | and_tail_fail _ h2 =>
    cases h2 with
    | and_fail h2 => cases dots_det h2
    | and_tail_fail _ h3 => cases h3
  | and_tail_crit _ h2 =>
    cases h2 with
    | and_crit h2 => cases dots_det h2
    | and_tail_crit _ h3 => cases h3

theorem startExpr_ok {G r ns} (h : Peg G x s (.ok r ns)) : Peg G (startExpr x) s (.ok [] (ns ++ charNodes r)) := by
  have := Peg.and_ok h (.and_ok (dots_all r) (.and_nil _))
  rwa [List.append_nil] at this

theorem start_miss {G} (h : MissesAt G x s) : ∃ o, Peg G (startExpr x) s o ∧ ∀ ns, o ≠ .ok [] ns := by
  rcases h with h | ⟨w, q, h⟩
  · exact ⟨_, .and_fail h, by simp⟩
  · exact ⟨_, .and_crit h, by simp⟩

/-- accepted by `main = x .*`: `x` matches here -/
theorem starts_ok (ha : Ascii s) {t} : parse s (R.add c!"main" (startExpr x)) = .ok t ↔
    ∃ r ns, Peg (denotes (R.add c!"main" (startExpr x))) (effective x) s (.ok r ns) ∧ t = .rule c!"main" (ns ++ charNodes r) := by
  rw [addMain_ok ha, start_effective]
  constructor
  · rintro ⟨ns, h, rfl⟩
    rcases start_inv h with ⟨r, ns', h1, h2⟩ | ⟨_, h2⟩
    · cases h2; exact ⟨r, ns', h1, rfl⟩
    · exact absurd rfl (h2 ns)
  · rintro ⟨r, ns, h, rfl⟩
    exact ⟨_, startExpr_ok h, rfl⟩

theorem starts_err (ha : Ascii s) : (∃ er, parse s (R.add c!"main" (startExpr x)) = .err er) ↔
    MissesAt (denotes (R.add c!"main" (startExpr x))) (effective x) s := by
  rw [addMain_err ha, start_effective]
  constructor
  · rintro ⟨o, h, hn⟩
    rcases start_inv h with ⟨r, ns', _, h2⟩ | ⟨h, _⟩
    · exact absurd h2 (hn _)
    · exact h
  · exact fun h => start_miss h

theorem starts_hits (ha : Ascii s) : (∃ t, parse s (R.add c!"main" (startExpr x)) = .ok t) ↔
    MatchesAt (denotes (R.add c!"main" (startExpr x))) (effective x) s := by
  constructor
  · rintro ⟨t, h⟩
    obtain ⟨r, ns, h, _⟩ := (starts_ok ha).1 h
    exact ⟨r, ns, h⟩
  · rintro ⟨r, ns, h⟩
    exact ⟨_, (starts_ok ha).2 ⟨r, ns, h, rfl⟩⟩

theorem find_inv {G o} (h : Peg G (findExpr x) s o) : ∃ u v, s = u ++ v ∧ NowhereIn G x u v ∧
    ((∃ r ns, Peg G x v (.ok r ns) ∧ o = .ok [] (charNodes u ++ (ns ++ charNodes r))) ∨
      (v = [] ∧ MissesAt G x v ∧ ∀ ns, o ≠ .ok [] ns)) := by
  have tail : ∀ {v o}, Peg G (.and [x, .rep (.simple .dot) 0 none]) v o → MatchesAt G x v ∨ v = [] ∧ MissesAt G x v →
      (∃ r ns, Peg G x v (.ok r ns) ∧ o = .ok [] (ns ++ charNodes r)) ∨ (v = [] ∧ MissesAt G x v ∧ ∀ ns, o ≠ .ok [] ns) := by
    intro v o h hv
    rcases start_inv h with h1 | ⟨h1, h2⟩
    · exact Or.inl h1
    · rcases hv with hv | hv
      · exact absurd hv (not_hits h1)
      · exact Or.inr ⟨hv.1, h1, h2⟩
  unfold findExpr at h
  cases h with
  | and_ok h1 h2 =>
    obtain ⟨u, v, rfl, he, hf, hv⟩ := skip_inv h1
    cases he
    refine ⟨u, _, rfl, hf, ?_⟩
    rcases tail h2 hv with ⟨r, ns, h3, h4⟩ | ⟨h3, h4, h5⟩
    · cases h4; exact Or.inl ⟨r, ns, h3, rfl⟩
    · refine Or.inr ⟨h3, h4, ?_⟩
      intro ns h6
      cases h6
      exact h5 _ rfl
  | and_fail h1 => obtain ⟨u, v, _, he, _⟩ := skip_inv h1; cases he
  | and_crit h1 => obtain ⟨u, v, _, he, _⟩ := skip_inv h1; cases he
  | and_tail_fail h1 h2 =>
    obtain ⟨u, v, rfl, he, hf, hv⟩ := skip_inv h1
    cases he
    refine ⟨u, _, rfl, hf, ?_⟩
    rcases tail h2 hv with ⟨r, ns, h3, h4⟩ | ⟨h3, h4, h5⟩
    · cases h4
    · exact Or.inr ⟨h3, h4, by simp⟩
  | and_tail_crit h1 h2 =>
    obtain ⟨u, v, rfl, he, hf, hv⟩ := skip_inv h1
    cases he
    refine ⟨u, _, rfl, hf, ?_⟩
    rcases tail h2 hv with ⟨r, ns, h3, h4⟩ | ⟨h3, h4, h5⟩
    · cases h4
    · exact Or.inr ⟨h3, h4, by simp⟩

theorem find_ok {G u v r ns} (hf : NowhereIn G x u v) (h : Peg G x v (.ok r ns)) :
    Peg G (findExpr x) (u ++ v) (.ok [] (charNodes u ++ (ns ++ charNodes r))) :=
  .and_ok (skip_ok hf (Or.inl ⟨r, ns, h⟩)) (startExpr_ok h)

theorem find_miss {G u} (hf : NowhereIn G x u []) (h : MissesAt G x []) : ∃ o, Peg G (findExpr x) u o ∧ ∀ ns, o ≠ .ok [] ns := by
  have h1 := skip_ok hf (Or.inr ⟨rfl, h⟩)
  rw [List.append_nil] at h1
  rcases h with h | ⟨w, q, h⟩
  · exact ⟨_, .and_tail_fail h1 (.and_fail h), by simp⟩
  · exact ⟨_, .and_tail_crit h1 (.and_crit h), by simp⟩

theorem ascii_right {u v : Str} (h : Ascii (u ++ v)) : Ascii v := fun c hc => h c (List.mem_append_right _ hc)

/-- `NowhereIn`, with `parse` -/
theorem free_iff {u v : Str} (ha : Ascii (u ++ v)) : NowhereIn (denotes (R.add c!"main" (startExpr x))) (effective x) u v ↔
    ∀ u1 u2, u = u1 ++ u2 → u2 ≠ [] → ∃ er, parse (u2 ++ v) (R.add c!"main" (startExpr x)) = .err er := by
  unfold NowhereIn
  refine forall_congr' fun u1 => forall_congr' fun u2 => forall_congr' fun h => forall_congr' fun _ => ?_
  rw [starts_err]
  subst h
  rw [List.append_assoc] at ha
  exact ascii_right ha

theorem free_x (hR : MainApart R) (hx : ¬ Refs x c!"main") (e e' : Expr) {u v} :
    NowhereIn (denotes (R.add c!"main" e)) (effective x) u v ↔ NowhereIn (denotes (R.add c!"main" e')) (effective x) u v := by
  unfold NowhereIn
  simp only [misses_x hR hx e e']

/-- **C89**: the first place where `x` matches, with the characters before it one by one. -/
theorem C89_find (hR : MainApart R) (hx : ¬ Refs x c!"main") (ha : Ascii s) (t : Node) :
    parse s (R.add c!"main" (findExpr x)) = .ok t ↔
    ∃ u v ns, s = u ++ v ∧ parse v (R.add c!"main" (startExpr x)) = .ok (.rule c!"main" ns) ∧
      (∀ u1 u2, u = u1 ++ u2 → u2 ≠ [] → ∃ er, parse (u2 ++ v) (R.add c!"main" (startExpr x)) = .err er) ∧
      t = .rule c!"main" (u.map (fun c => .val [c]) ++ ns) := by
  rw [addMain_ok ha, find_effective]
  constructor
  · rintro ⟨ns, h, rfl⟩
    obtain ⟨u, v, rfl, hf, ⟨r, ns', h1, h2⟩ | ⟨_, _, h2⟩⟩ := find_inv h
    · cases h2
      refine ⟨u, v, _, rfl, (starts_ok (ascii_right ha)).2 ⟨r, ns', (same_x hR hx _ _).1 h1, rfl⟩, ?_, rfl⟩
      exact (free_iff ha).1 ((free_x hR hx _ _).1 hf)
    · exact absurd rfl (h2 ns)
  · rintro ⟨u, v, ns, rfl, h1, h2, rfl⟩
    obtain ⟨r, ns', h3, h4⟩ := (starts_ok (ascii_right ha)).1 h1
    cases h4
    exact ⟨_, find_ok ((free_x hR hx _ _).1 ((free_iff ha).2 h2)) ((same_x hR hx _ _).1 h3), rfl⟩

/-- **C89**: nothing is found if and only if `x` matches nowhere, the end of the text included. -/
theorem C89_not_found (hR : MainApart R) (hx : ¬ Refs x c!"main") (ha : Ascii s) :
    (∃ er, parse s (R.add c!"main" (findExpr x)) = .err er) ↔
    ∀ u v, s = u ++ v → ∃ er, parse v (R.add c!"main" (startExpr x)) = .err er := by
  rw [addMain_err ha, find_effective]
  constructor
  · rintro ⟨o, h, hn⟩ u v hs
    obtain ⟨u', v', hs', hf, ⟨r, ns', _, h2⟩ | ⟨rfl, hm, _⟩⟩ := find_inv h
    · exact absurd h2 (hn _)
    · rw [List.append_nil] at hs'
      subst hs'
      by_cases hv : v = []
      · subst hv
        exact (starts_err (ascii_right (hs ▸ ha))).2 ((misses_x hR hx _ _).1 hm)
      · have := (free_iff (by rw [List.append_nil]; exact ha)).1 ((free_x hR hx _ _).1 hf) u v hs hv
        rwa [List.append_nil] at this
  · intro h
    refine find_miss (fun u1 u2 h1 _ => ?_) ?_
    · rw [List.append_nil]
      exact (misses_x hR hx _ _).1 ((starts_err (ascii_right (h1 ▸ ha))).1 (h u1 u2 h1))
    · exact (misses_x hR hx _ _).1 ((starts_err (by intro c hc; cases hc)).1 (h s [] (by simp)))

/-- **C89**: it does not return if and only if `x` does not at some place, and matches at no place before. -/
theorem C89_loops (hR : MainApart R) (hx : ¬ Refs x c!"main") (ha : Ascii s) :
    parse s (R.add c!"main" (findExpr x)) = .diverge ↔
    ∃ u v, s = u ++ v ∧ parse v (R.add c!"main" (startExpr x)) = .diverge ∧
      ∀ u1 u2, u = u1 ++ u2 → u2 ≠ [] → ∃ er, parse (u2 ++ v) (R.add c!"main" (startExpr x)) = .err er := by
  constructor
  · intro h
    by_contra hc
    -- then at every place it does not match
    have all : ∀ n u v, u.length = n → s = u ++ v → ∃ er, parse v (R.add c!"main" (startExpr x)) = .err er := by
      intro n
      induction n using Nat.strongRecOn with
      | ind n ih =>
        intro u v hn hs
        have before : ∀ u1 u2, u = u1 ++ u2 → u2 ≠ [] → ∃ er, parse (u2 ++ v) (R.add c!"main" (startExpr x)) = .err er := by
          intro u1 u2 hu h2
          refine ih u1.length ?_ u1 (u2 ++ v) rfl (by rw [hs, hu, List.append_assoc])
          have := List.length_pos_iff.2 h2
          rw [← hn, hu, List.length_append]
          omega
        cases hp : parse v (R.add c!"main" (startExpr x)) with
        | err e => exact ⟨e, rfl⟩
        | diverge => exact absurd ⟨u, v, hs, hp, before⟩ hc
        | panic => exact absurd hp (C16_no_panic_on_ascii _ (ascii_right (hs ▸ ha)))
        | ok t =>
          obtain ⟨r, ns, _, ht⟩ := (starts_ok (ascii_right (hs ▸ ha))).1 hp
          rw [ht] at hp
          rw [(C89_find hR hx ha _).2 ⟨u, v, _, hs, hp, before, rfl⟩] at h
          cases h
    obtain ⟨er, he⟩ := (C89_not_found hR hx ha).2 fun u v hs => all _ u v rfl hs
    rw [h] at he
    cases he
  · rintro ⟨u, v, rfl, h1, h2⟩
    cases hp : parse (u ++ v) (R.add c!"main" (findExpr x)) with
    | diverge => rfl
    | panic => exact absurd hp (C16_no_panic_on_ascii _ ha)
    | ok t =>
      obtain ⟨u', v', ns, hs, h3, h4, _⟩ := (C89_find hR hx ha t).1 hp
      rcases List.append_eq_append_iff.1 hs with ⟨a, h5, h6⟩ | ⟨a, h5, h6⟩
      · by_cases ha' : a = []
        · subst ha'
          rw [List.nil_append] at h6
          rw [h6, h3] at h1
          cases h1
        · obtain ⟨er, he⟩ := h4 u a h5 ha'
          rw [← h6, h1] at he
          cases he
      · by_cases ha' : a = []
        · subst ha'
          rw [List.nil_append] at h6
          rw [h6, h1] at h3
          cases h3
        · obtain ⟨er, he⟩ := h2 u' a h5 ha'
          rw [← h6, h3] at he
          cases he
    | err e =>
      obtain ⟨er, he⟩ := (C89_not_found hR hx ha).1 ⟨e, hp⟩ u v rfl
      rw [h1] at he
      cases he

/-- **C89**: `(!x .)*` alone accepts the texts in which `x` matches nowhere before the end. -/
theorem C89_without (hR : MainApart R) (hx : ¬ Refs x c!"main") (ha : Ascii s) (t : Node) :
    parse s (R.add c!"main" (withoutExpr x)) = .ok t ↔
    (∀ u v, s = u ++ v → v ≠ [] → ∃ er, parse v (R.add c!"main" (startExpr x)) = .err er) ∧
      parse [] (R.add c!"main" (startExpr x)) ≠ .diverge ∧ t = .rule c!"main" (s.map fun c => .val [c]) := by
  have h0 : Ascii ([] : Str) := by intro c hc; cases hc
  rw [addMain_ok ha, without_effective]
  constructor
  · rintro ⟨ns, h, rfl⟩
    obtain ⟨u, v, rfl, he, hf, hv⟩ := skip_inv h
    cases he
    rw [List.append_nil] at ha ⊢
    refine ⟨fun u1 u2 hu hn => ?_, ?_, rfl⟩
    · have := (free_iff (by rw [List.append_nil]; exact ha)).1 ((free_x hR hx _ _).1 hf) u1 u2 hu hn
      rwa [List.append_nil] at this
    · rcases hv with hv | ⟨_, hv⟩
      · obtain ⟨t, ht⟩ := (starts_hits h0).2 ((hits_x hR hx _ _).1 hv)
        rw [ht]; simp
      · obtain ⟨t, ht⟩ := (starts_err h0).2 ((misses_x hR hx _ _).1 hv)
        rw [ht]; simp
  · rintro ⟨h1, h2, rfl⟩
    have hf : NowhereIn (denotes (R.add c!"main" (withoutExpr x))) (effective x) s [] := by
      refine (free_x hR hx _ _).1 ((free_iff (by rw [List.append_nil]; exact ha)).2 fun u1 u2 hu hn => ?_)
      rw [List.append_nil]
      exact h1 u1 u2 hu hn
    have hv : MatchesAt (denotes (R.add c!"main" (withoutExpr x))) (effective x) [] ∨
        ([] : Str) = [] ∧ MissesAt (denotes (R.add c!"main" (withoutExpr x))) (effective x) [] := by
      cases hp : parse [] (R.add c!"main" (startExpr x)) with
      | ok t => exact Or.inl ((hits_x hR hx _ _).1 ((starts_hits h0).1 ⟨t, hp⟩))
      | err e => exact Or.inr ⟨rfl, (misses_x hR hx _ _).1 ((starts_err h0).1 ⟨e, hp⟩)⟩
      | panic => exact absurd hp (C16_no_panic_on_ascii _ h0)
      | diverge => exact absurd hp h2
    have := skip_ok hf hv
    rw [List.append_nil] at this
    exact ⟨_, this, rfl⟩

end

/-! ### A text in a text -/

/-- accepted by `main = 'l' .*`: it begins so -/
theorem starts_literal {R : SetOfRules} {l s : Str} (ha : Ascii s) : ((∃ t, parse s (R.add c!"main" (startExpr (.simple (.literal l)))) = .ok t) ↔ l <+: s) ∧
    ((∃ e, parse s (R.add c!"main" (startExpr (.simple (.literal l)))) = .err e) ↔ ¬ l <+: s) := by
  rw [starts_hits ha, starts_err ha]
  have e0 : effective (.simple (.literal l)) = .simple (.literal l) := rfl
  rw [e0]
  refine ⟨⟨?_, ?_⟩, ⟨?_, fun h => Or.inl (.lit_fail l s h)⟩⟩
  · rintro ⟨r, ns, h⟩
    cases h with
    | lit_ok l r => exact List.prefix_append l r
  · rintro ⟨r, rfl⟩
    exact ⟨r, _, .lit_ok l r⟩
  · rintro (h | ⟨w, q, h⟩)
    · cases h with
      | lit_fail _ _ h => exact h
    · cases h

/-- nowhere: the text is not in the text -/
theorem infix_iff_suffix {l s : Str} : l <:+: s ↔ ∃ u v, s = u ++ v ∧ l <+: v := by
  constructor
  · rintro ⟨u, v, rfl⟩
    exact ⟨u, l ++ v, by rw [List.append_assoc], List.prefix_append l v⟩
  · rintro ⟨u, v, rfl, r, rfl⟩
    exact ⟨u, r, by rw [List.append_assoc]⟩

theorem no_refs_literal {l n : Str} : ¬ Refs (.simple (.literal l)) n := fun h => by cases h

/-- **C89**: `main = (!'l' .)* 'l' .*` accepts the ASCII texts that contain `l`, and the tree is cut at the first place; it refuses the
others, which `main = (!'l' .)*` accepts, if `l` is not empty. -/
theorem C89_literal {R : SetOfRules} {s : Str} (l : Str) (hR : MainApart R) (ha : Ascii s) :
    ((∃ t, parse s (R.add c!"main" (findExpr (.simple (.literal l)))) = .ok t) ↔ l <:+: s) ∧
    ((∃ e, parse s (R.add c!"main" (findExpr (.simple (.literal l)))) = .err e) ↔ ¬ l <:+: s) ∧
    (∀ t, parse s (R.add c!"main" (findExpr (.simple (.literal l)))) = .ok t ↔ ∃ u v, s = u ++ l ++ v ∧
      (∀ u' v', s = u' ++ l ++ v' → u.length ≤ u'.length) ∧
      t = .rule c!"main" (u.map (fun c => .val [c]) ++ .val l :: v.map fun c => .val [c])) ∧
    (l ≠ [] → ((∃ t, parse s (R.add c!"main" (withoutExpr (.simple (.literal l)))) = .ok t) ↔ ¬ l <:+: s)) := by
  have hx : ¬ Refs (.simple (.literal l)) c!"main" := no_refs_literal
  have hS : ∀ {v t}, Ascii v → (parse v (R.add c!"main" (startExpr (.simple (.literal l)))) = .ok t ↔
      ∃ r, v = l ++ r ∧ t = .rule c!"main" (.val l :: charNodes r)) := by
    intro v t hv
    rw [starts_ok hv]
    constructor
    · rintro ⟨r, ns, h, rfl⟩
      cases (show Peg _ (.simple (.literal l)) v (.ok r ns) from h)
      exact ⟨r, rfl, rfl⟩
    · rintro ⟨r, rfl, rfl⟩
      exact ⟨r, _, Peg.lit_ok l r, rfl⟩
  have err : (∃ e, parse s (R.add c!"main" (findExpr (.simple (.literal l)))) = .err e) ↔ ¬ l <:+: s := by
    rw [C89_not_found hR hx ha, infix_iff_suffix]
    push Not
    refine forall_congr' fun u => forall_congr' fun v => ?_
    constructor
    · intro h hs; exact (starts_literal (ascii_right (hs ▸ ha))).2.1 (h hs)
    · intro h hs; exact (starts_literal (ascii_right (hs ▸ ha))).2.2 (h hs)
  have tree : ∀ t, parse s (R.add c!"main" (findExpr (.simple (.literal l)))) = .ok t ↔ ∃ u v, s = u ++ l ++ v ∧
      (∀ u' v', s = u' ++ l ++ v' → u.length ≤ u'.length) ∧
      t = .rule c!"main" (u.map (fun c => .val [c]) ++ .val l :: v.map fun c => .val [c]) := by
    intro t
    rw [C89_find hR hx ha]
    constructor
    · rintro ⟨u, v, ns, hs, h1, h2, rfl⟩
      obtain ⟨r, rfl, h3⟩ := (hS (ascii_right (hs ▸ ha))).1 h1
      cases h3
      refine ⟨u, r, by rw [hs, List.append_assoc], fun u' v' hs' => ?_, rfl⟩
      by_contra hlt
      rw [hs, List.append_assoc] at hs'
      rcases List.append_eq_append_iff.1 hs' with ⟨a, h5, h6⟩ | ⟨a, h5, h6⟩
      · rw [h5, List.length_append] at hlt; omega
      · have hn : a ≠ [] := by rintro rfl; rw [h5] at hlt; simp at hlt
        have ha' : Ascii (a ++ (l ++ r)) := by
          refine ascii_right (u := u') ?_
          rw [← List.append_assoc, ← h5, ← hs]
          exact ha
        refine (starts_literal ha').2.1 (h2 u' a h5 hn) ?_
        rw [← h6]
        exact List.prefix_append _ _
    · rintro ⟨u, v, hs, h1, rfl⟩
      rw [List.append_assoc] at hs
      refine ⟨u, l ++ v, _, hs, (hS (ascii_right (hs ▸ ha))).2 ⟨v, rfl, rfl⟩, ?_, rfl⟩
      intro u1 u2 hu hn
      have ha' : Ascii (u2 ++ (l ++ v)) := by
        refine ascii_right (u := u1) ?_
        rw [← List.append_assoc, ← hu, ← hs]
        exact ha
      refine (starts_literal ha').2.2 ?_
      rintro ⟨r, hr⟩
      have := h1 u1 r (by rw [hs, hu, List.append_assoc, List.append_assoc, hr])
      have := List.length_pos_iff.2 hn
      rw [hu, List.length_append] at *
      omega
  refine ⟨?_, err, tree, fun hl => ?_⟩
  · constructor
    · rintro ⟨t, h⟩
      obtain ⟨u, v, rfl, _⟩ := (tree t).1 h
      exact ⟨u, v, rfl⟩
    · intro h
      cases hp : parse s (R.add c!"main" (findExpr (.simple (.literal l)))) with
      | ok t => exact ⟨t, rfl⟩
      | err e => exact absurd h (err.1 ⟨e, hp⟩)
      | panic => exact absurd hp (C16_no_panic_on_ascii _ ha)
      | diverge =>
        obtain ⟨u, v, hs, h1, _⟩ := (C89_loops hR hx ha).1 hp
        by_cases hv : l <+: v
        · obtain ⟨t, ht⟩ := (starts_literal (ascii_right (hs ▸ ha))).1.2 hv
          rw [h1] at ht; cases ht
        · obtain ⟨t, ht⟩ := (starts_literal (ascii_right (hs ▸ ha))).2.2 hv
          rw [h1] at ht; cases ht
  · have h0 : Ascii ([] : Str) := by intro c hc; cases hc
    constructor
    · rintro ⟨t, h⟩
      obtain ⟨h1, _, _⟩ := (C89_without hR hx ha t).1 h
      rw [infix_iff_suffix]
      rintro ⟨u, v, hs, hv⟩
      have hn : v ≠ [] := by rintro rfl; exact hl (List.prefix_nil.1 hv)
      exact (starts_literal (ascii_right (hs ▸ ha))).2.1 (h1 u v hs hn) hv
    · intro h
      rw [infix_iff_suffix] at h
      refine ⟨_, (C89_without hR hx ha _).2 ⟨fun u v hs _ => ?_, ?_, rfl⟩⟩
      · exact (starts_literal (ascii_right (hs ▸ ha))).2.2 fun hv => h ⟨u, v, hs, hv⟩
      · obtain ⟨e, he⟩ := (starts_literal (R := R) (l := l) h0).2.2 fun h => hl (List.prefix_nil.1 h)
        rw [he]; simp

/-! ### Concretely -/

/-- `main = (!'ab' .)* 'ab' .*` in a PEG text -/
def searchText : Str := c!"main = (!'ab' .)* 'ab' .*\n"

theorem search_rules : rulesFromPeg searchText = .ok (SetOfRules.empty.add c!"main" (findExpr (.simple (.literal c!"ab")))) :=
  rulesFromPeg_of 200 (by decide +kernel)

theorem empty_apart : MainApart SetOfRules.empty := fun n e _ h => by cases h

/-- the first of two -/
example : ∃ R, rulesFromPeg searchText = .ok R ∧ parse c!"xababy" R = .ok (.rule c!"main" [.val c!"x", .val c!"ab", .val c!"a", .val c!"b", .val c!"y"]) ∧
    ∃ e, parse c!"axb" R = .err e :=
  ⟨_, search_rules, ((C89_literal c!"ab" empty_apart (by decide)).2.2.1 _).2
      ⟨c!"x", c!"aby", rfl, fun u' v' h => by
        cases u' with
        | nil => simp only [List.nil_append, List.cons_append, List.cons.injEq] at h; exact absurd h.1 (by decide)
        | cons _ _ => simp, rfl⟩,
    (C89_literal c!"ab" empty_apart (by decide)).2.1.2 (by decide)⟩

/-- something nested: `n = '(' n ')' / 'x'` -/
def nestRules : SetOfRules := ⟨[(c!"n", .or [.and [.simple (.literal c!"("), .ruleName c!"n", .simple (.literal c!")")], .simple (.literal c!"x")])]⟩

theorem nest_apart : MainApart nestRules := by
  intro n e _ h hr
  have hm := mem_of_get (R := nestRules) h
  simp only [nestRules, List.mem_cons, List.not_mem_nil, or_false, Prod.mk.injEq] at hm
  obtain ⟨_, rfl⟩ := hm
  cases hr with
  | or h1 h2 =>
    simp only [List.mem_cons, List.not_mem_nil, or_false] at h1
    rcases h1 with rfl | rfl
    · cases h2 with
      | and h3 h4 =>
        simp only [List.mem_cons, List.not_mem_nil, or_false] at h3
        rcases h3 with rfl | rfl | rfl <;> cases h4
    · cases h2

/-- in `((x)` it is found at the second place -/
example : parse c!"((x)" (nestRules.add c!"main" (findExpr (.ruleName c!"n"))) =
    .ok (.rule c!"main" [.val c!"(", .rule c!"n" [.val c!"(", .rule c!"n" [.val c!"x"], .val c!")"]]) :=
  parse_of_fuel (f := 30) (by decide +kernel) (by simp)

/-- and the theorem says where: nowhere before, and there with `main = n .*` -/
example : ∃ u v ns, c!"((x)" = u ++ v ∧ parse v (nestRules.add c!"main" (startExpr (.ruleName c!"n"))) = .ok (.rule c!"main" ns) := by
  obtain ⟨u, v, ns, h1, h2, _⟩ := (C89_find (x := .ruleName c!"n") (s := c!"((x)") nest_apart (fun h => by cases h) (by decide) _).1
    (parse_of_fuel (f := 30) (x := .ok (.rule c!"main" [.val c!"(", .rule c!"n" [.val c!"(", .rule c!"n" [.val c!"x"], .val c!")"]]))
      (by decide +kernel) (by simp))
  exact ⟨u, v, ns, h1, h2⟩

/-- a missing rule is found nowhere -/
example : ∃ e, parse c!"ab" (SetOfRules.empty.add c!"main" (findExpr (.ruleName c!"n"))) = .err e :=
  ⟨⟨⟨2, 0, 2, 0⟩, .missingRule c!"n", c!"ab", c!"", [], .critical⟩, parse_of_fuel (f := 30) (by decide +kernel) (by simp)⟩

end DP
