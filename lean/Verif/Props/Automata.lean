/-
Property C77: rules with recursion in last position only accept the regular languages.
-/
import Verif.Proofs.Foresee
import Verif.Props.Combine
import Verif.Props.Regular
import Verif.Props.Linear
import Verif.Props.Readme
import Mathlib.Data.Fintype.EquivFin

namespace DP
open Spec

theorem regular_ascii : ∃ L : Language Char, L.IsRegular ∧ ∀ s, s ∈ L ↔ Ascii s := by
  classical
  obtain ⟨L, h, hL⟩ := regular_of_memory (Q := Bool) (st := fun s => decide (Ascii s)) (fun c s s' h => by
    have h : Ascii s ↔ Ascii s' := by simpa using h
    have hc : ∀ t, Ascii (c :: t) ↔ c.toNat < 128 ∧ Ascii t := by
      intro t
      constructor
      · intro h; exact ⟨h c (by simp), fun d hd => h d (List.mem_cons_of_mem _ hd)⟩
      · rintro ⟨h1, h2⟩ d hd
        rcases List.mem_cons.1 hd with rfl | hd
        · exact h1
        · exact h2 d hd
    simp only [hc, h]) (· = true)
  exact ⟨L, h, fun s => by rw [hL]; simp⟩

/-- for ASCII texts -/
theorem regular_and_ascii {P : Str → Prop} (h : ∃ L : Language Char, L.IsRegular ∧ ∀ s, s ∈ L ↔ P s) :
    ∃ L : Language Char, L.IsRegular ∧ ∀ s, s ∈ L ↔ Ascii s ∧ P s := by
  obtain ⟨L, h1, h2⟩ := h
  obtain ⟨L', h3, h4⟩ := regular_ascii
  exact ⟨_, h3.inf h1, fun s => (and_congr (h4 s) (h2 s) : s ∈ L' ∧ s ∈ L ↔ _)⟩

theorem comes_empty {G : Str → Option Expr} {e s} :
    Comes (behOf G e) (fun r => decide (r = [])) s (.ok true) ↔ ∃ ns, Peg G e s (.ok [] ns) := by
  constructor
  · rintro ⟨d, hd, he⟩
    cases d with
    | ok r =>
      simp only [Fate.map, Fate.ok.injEq] at he
      have : r = [] := by simpa using he.symm
      subst this
      exact hd
    | _ => cases he
  · intro h; exact ⟨.ok [], h, rfl⟩

theorem comes_crit {G : Str → Option Expr} {e s} :
    Comes (behOf G e) (fun r => decide (r = [])) s .crit ↔ ∃ w q, Peg G e s (.crit w q) := by
  constructor
  · rintro ⟨d, hd, he⟩
    cases d with
    | crit => exact hd
    | _ => cases he
  · intro h; exact ⟨.crit, h, rfl⟩

theorem comes_any {G : Str → Option Expr} {e s} :
    (∃ x, Comes (behOf G e) (fun r => decide (r = [])) s x) ↔ ∃ o, Peg G e s o := by
  constructor
  · rintro ⟨x, d, hd, he⟩
    cases d with
    | ok r => obtain ⟨_, h⟩ := hd; exact ⟨_, h⟩
    | fail => exact ⟨_, hd⟩
    | crit => obtain ⟨_, _, h⟩ := hd; exact ⟨_, h⟩
  · rintro ⟨o, h⟩
    cases o with
    | ok r ns => exact ⟨_, .ok r, ⟨_, h⟩, rfl⟩
    | fail => exact ⟨_, .fail, h, rfl⟩
    | crit w q => exact ⟨_, .crit, ⟨_, _, h⟩, rfl⟩

theorem accepted_ascii {R : SetOfRules} {s} : (∃ t, parse s R = .ok t) ↔ Ascii s ∧ ∃ ns, Peg (denotes R) (.ruleName c!"main") s (.ok [] ns) := by
  constructor
  · intro h
    have ha : Ascii s := by obtain ⟨t, h⟩ := h; exact C17_ok_only_on_ascii h
    exact ⟨ha, (accepted_iff ha).1 h⟩
  · rintro ⟨ha, h⟩; exact (accepted_iff ha).2 h

/-- **C77**: if rules call each other recursively in last position only, the texts they accept are a regular language. So are
the ASCII texts that end in a critical error, and those on which `parse` does not return. -/
theorem C77_regular {R : SetOfRules} (h : TailRecursive (denotes R)) :
    (∃ L : Language Char, L.IsRegular ∧ ∀ s, s ∈ L ↔ ∃ t, parse s R = .ok t) ∧
    (∃ L : Language Char, L.IsRegular ∧ ∀ s, s ∈ L ↔ Ascii s ∧ ∃ e, parse s R = .err e ∧ e.priority = .critical) ∧
    (∃ L : Language Char, L.IsRegular ∧ ∀ s, s ∈ L ↔ Ascii s ∧ parse s R = .diverge) := by
  have hf := foresees_of_tailRecursive (fun n e hg => mem_keys hg) h
  refine ⟨?_, ?_, ?_⟩
  · obtain ⟨L, h1, h2⟩ := regular_and_ascii (regular_of_foresees hf fun S => .ok true ∈ S)
    refine ⟨L, h1, fun s => ?_⟩
    rw [h2, accepted_ascii]
    exact and_congr_right fun _ => comes_empty
  · obtain ⟨L, h1, h2⟩ := regular_and_ascii (regular_of_foresees hf fun S => .crit ∈ S)
    refine ⟨L, h1, fun s => ?_⟩
    rw [h2]
    refine and_congr_right fun ha => ?_
    rw [critical_iff ha]
    exact comes_crit
  · obtain ⟨L, h1, h2⟩ := regular_and_ascii (regular_of_foresees hf fun S => ¬ ∃ x, x ∈ S)
    refine ⟨L, h1, fun s => ?_⟩
    rw [h2]
    refine and_congr_right fun ha => ?_
    rw [← not_iff_not, not_not, ← Ne, returns_iff ha]
    exact comes_any

/-- `main = 'a' main / 'b'` -/
def exTail : SetOfRules := ⟨[(c!"main", .or [.and [.simple (.literal c!"a"), .ruleName c!"main"], .simple (.literal c!"b")])]⟩

theorem exTail_tail : TailRecursive (denotes exTail) := by
  refine ⟨fun _ => 0, fun n e _ hg => ?_⟩
  have hm := mem_keys hg
  simp only [exTail, List.map_cons, List.map_nil, List.mem_singleton] at hm
  subst hm
  cases hg
  refine .or fun x hx => ?_
  simp only [effectives, effective, List.mem_cons, List.not_mem_nil, or_false] at hx
  rcases hx with rfl | rfl
  · exact .next (fun m hm => by cases hm) (.last (.call rfl))
  · exact .low fun m hm => by cases hm

example : (∃ L : Language Char, L.IsRegular ∧ ∀ s, s ∈ L ↔ ∃ t, parse s exTail = .ok t) ∧
    (∃ t, parse c!"aab" exTail = .ok t) ∧ ¬ ∃ t, parse c!"aa" exTail = .ok t := by
  refine ⟨(C77_regular exTail_tail).1, ⟨.rule c!"main" [.val c!"a", .rule c!"main" [.val c!"a", .rule c!"main" [.val c!"b"]]],
    parse_of_fuel (f := 20) (by decide +kernel) (by simp)⟩, ?_⟩
  rw [accepted_ascii]
  rintro ⟨_, ns, h⟩
  have hg : denotes exTail c!"main" = some (.or [.and [.simple (.literal c!"a"), .ruleName c!"main"], .simple (.literal c!"b")]) := rfl
  have h0 : Peg (denotes exTail) (.ruleName c!"main") [] .fail :=
    .call_fail hg (.or_next (.and_fail (.lit_fail _ _ (by decide))) (.or_next (.lit_fail _ _ (by decide)) (.or_nil _)))
  have h1 : ∀ {r}, Peg (denotes exTail) (.ruleName c!"main") r .fail → Peg (denotes exTail) (.ruleName c!"main") ('a' :: r) .fail := fun {r} h =>
    .call_fail hg (.or_next (.and_tail_fail (.lit_ok c!"a" r) (.and_fail h)) (.or_next (.lit_fail _ _ (by simp)) (.or_nil _)))
  cases peg_det h (h1 (h1 h0))

/-- **C77**: in particular rules that are not recursive at all. -/
theorem C77_no_recursion {R : SetOfRules} (h : ∀ n, Reach (denotes R) n → ¬ Relation.TransGen (fun n m => ∃ e, denotes R n = some e ∧ Refs e m) n n) :
    TailRecursive (denotes R) := by
  have hr : ∀ {n m}, Relation.TransGen (fun n m => Reach (denotes R) n ∧ ∃ e, denotes R n = some e ∧ Refs e m) n m →
      Reach (denotes R) n ∧ Relation.TransGen (fun n m => ∃ e, denotes R n = some e ∧ Refs e m) n m := by
    intro n m g
    induction g with
    | single g => exact ⟨g.1, .single g.2⟩
    | tail _ g ih => exact ⟨ih.1, ih.2.tail g.2⟩
  obtain ⟨rk, hrk, _⟩ := ranks_of_acyclic (r := fun n m => Reach (denotes R) n ∧ ∃ e, denotes R n = some e ∧ Refs e m) (R.entries.map Prod.fst)
    (fun a b ⟨_, _, h, _⟩ => mem_keys h) fun n g => h n (hr g).1 (hr g).2
  exact ⟨rk, fun n e hn hg => .low fun m hm => hrk n m ⟨hn, e, hg, hm⟩⟩

/-! ### All regular languages -/

theorem automaton_tail {k : Nat} (M : DFA Char (_root_.Fin k)) (final : _root_.Fin k → Bool) : TailRecursive (denotes (automaton M final)) := by
  refine ⟨fun n => if n = c!"main" then 1 else 0, fun n e _ hg => ?_⟩
  have hs : ∀ i, (if stateName i = c!"main" then 1 else 0) = 0 := fun i => if_neg (stateName_main i)
  rcases automaton_rules M final hg with ⟨rfl, rfl⟩ | ⟨i, rfl, rfl⟩
  · refine .low fun m hm => ?_
    cases hm
    simp only [hs]
    decide
  · refine .or fun x hx => ?_
    rcases List.mem_append.1 hx with hx | hx
    · obtain ⟨c, _, rfl⟩ := List.mem_map.1 hx
      refine .next (fun m hm => by cases hm) (.last (.call ?_))
      simp only [hs]
    · split at hx
      · rw [List.mem_singleton.1 hx]
        refine .not (.low fun m hm => by cases hm)
      · cases hx

/-- **C77**: a language of ASCII texts is regular if and only if it is accepted by rules with recursion in last position only. -/
theorem C77_exactly (L : Language Char) (hL : ∀ s ∈ L, Ascii s) :
    L.IsRegular ↔ ∃ R : SetOfRules, TailRecursive (denotes R) ∧ ∀ s, (∃ t, parse s R = .ok t) ↔ s ∈ L := by
  constructor
  · rintro ⟨σ, _, M, rfl⟩
    classical
    let eq := Fintype.equivFin σ
    refine ⟨automaton (DFA.reindex eq M) fun i => decide (i ∈ (DFA.reindex eq M).accept), automaton_tail _ _, fun s => ?_⟩
    rw [automaton_accepts, decide_eq_true_iff, ← DFA.mem_accepts, DFA.accepts_reindex]
    exact ⟨fun h => h.2, fun h => ⟨hL s h, h⟩⟩
  · rintro ⟨R, h, hR⟩
    obtain ⟨L', h1, h2⟩ := (C77_regular h).1
    have : L' = L := by
      ext s
      rw [h2, hR]
    rwa [← this]

/-! ### Other recursion is needed -/

/-- a regular language does not compare two counts -/
theorem not_regular_pairs {L : Language Char} (hL : L.IsRegular) (u w : Nat → Str)
    (h : ∀ n m, u n ++ w m ∈ L ↔ n = m) : False := by
  obtain ⟨σ, _, M, rfl⟩ := hL
  obtain ⟨i, j, hne, he⟩ := Finite.exists_ne_map_eq_of_infinite fun n => M.eval (u n)
  have h1 : M.eval (u i ++ w i) = M.eval (u j ++ w i) := by
    show M.evalFrom M.start _ = M.evalFrom M.start _
    rw [DFA.evalFrom_of_append, DFA.evalFrom_of_append]
    exact congrArg (fun x => M.evalFrom x (w i)) he
  have h2 := (h i i).2 rfl
  rw [DFA.mem_accepts, h1] at h2
  exact hne ((h j i).1 ((DFA.mem_accepts _).2 h2)).symm

/-- **C77**: rules that accept `(((hello)))` and the like, but not with different numbers of opening and closing parentheses,
call themselves elsewhere. -/
theorem C77_recursion_needed {R : SetOfRules} (h : ∀ n m, (∃ t, parse (Readme.parens n m) R = .ok t) ↔ n = m) : ¬ TailRecursive (denotes R) := by
  intro ht
  obtain ⟨L, h1, h2⟩ := (C77_regular ht).1
  refine not_regular_pairs h1 (fun n => List.replicate n '(' ++ c!"hello") (fun m => List.replicate m ')') fun n m => ?_
  rw [h2]
  exact h n m

theorem parens_counts {n m k : Nat} (h : Readme.parens n m = Readme.parens k k) : n = m := by
  have h1 := congrArg (List.count '(') h
  have h2 := congrArg (List.count ')') h
  simp [Readme.parens, List.count_append, List.count_replicate] at h1 h2
  omega

/-- the grammar of README.md for that -/
example : ∃ R, rulesFromPeg Readme.unbalanced = .ok R ∧ ¬ TailRecursive (denotes R) := by
  obtain ⟨R, h1, h2, _⟩ := C60_unbalanced
  refine ⟨R, h1, C77_recursion_needed fun n m => ?_⟩
  constructor
  · rintro ⟨t, h⟩
    obtain ⟨k, h3, _⟩ := (h2 _ t).1 h
    exact parens_counts h3
  · rintro rfl
    exact ⟨_, (h2 _ _).2 ⟨n, rfl, rfl⟩⟩

end DP
