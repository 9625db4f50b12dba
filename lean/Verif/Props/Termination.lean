/-
C12, C13: termination.
-/
import Verif.Props.Rules
import Verif.Proofs.WfCheck

namespace DP
open Spec

/-! ### C12 -/

theorem mem_keys {R : SetOfRules} {n e} (h : denotes R n = some e) : n ∈ R.entries.map Prod.fst := by
  unfold denotes at h
  cases hg : grammar R n with
  | none => rw [hg] at h; cases h
  | some e' => exact List.mem_map.mpr ⟨_, mem_of_get (R := R) hg, rfl⟩

theorem peg_total_of_wf {R : SetOfRules} (h : WellFormed (denotes R)) (s : Str) (e : Expr)
    (he : RepOK (denotes R) e) : ∃ o, Peg (denotes R) e s o := by
  have hwf : WellFounded (fun m n => LeftStep (denotes R) n m) :=
    wf_of_acyclic (R.entries.map Prod.fst) (fun a b ⟨_, h, _⟩ => mem_keys h) h.no_left_recursion
  exact total_peg hwf (fun n e hg b mn hs => h.no_empty_repetition n e b mn hg hs) s.length s rfl e he

/-- **C12**: parsing with a well-formed set of rules returns on every input. (`denotes R` maps each name
to its expression; degenerate repetition bounds are read as explained in Spec/Bounds.lean.) -/
theorem C12_well_formed_grammars_terminate {R : SetOfRules} (h : WellFormed (denotes R)) (s : Str) :
    parse s R ≠ .diverge ∧ parseDebug s R ≠ .diverge := by
  obtain ⟨o, ho⟩ := peg_total_of_wf h s (.ruleName c!"main") (by intro b mn hs; cases hs)
  have h1 : parse s R ≠ .diverge := by
    intro hd
    have hr : runRule R (Status.init s) c!"main" ≠ .diverge := by
      intro hx
      rcases main_complete ho with hp | hc
      · rw [hx] at hp; cases hp
      · rw [hx] at hc
        cases o <;> obtain ⟨_, h1, _⟩ := hc <;> cases h1
    rw [parse_eq] at hd
    cases hx : runRule R (Status.init s) c!"main" with
    | ok x =>
      rw [hx] at hd
      simp only at hd
      split at hd
      · cases hd
      · split at hd
        · cases hd
        · exact raise_diverge hd
    | err e => rw [hx] at hd; cases hd
    | panic => rw [hx] at hd; cases hd
    | diverge => exact hr hx
  refine ⟨h1, ?_⟩
  intro hd
  apply h1
  rw [C18_parse_debug_agrees, hd]
  rfl

/-- **C12** with **C16**: on ASCII text and well-formed rules the result is Ok or Err. -/
theorem C12_total_on_ascii {R : SetOfRules} (h : WellFormed (denotes R)) {s : Str} (ha : Ascii s) :
    (∃ t, parse s R = .ok t) ∨ (∃ e, parse s R = .err e) := by
  cases hx : parse s R with
  | ok t => exact Or.inl ⟨t, rfl⟩
  | err e => exact Or.inr ⟨e, rfl⟩
  | panic => exact absurd hx (C16_no_panic_on_ascii R ha)
  | diverge => exact absurd hx (C12_well_formed_grammars_terminate h s).1

/-- a recursive, well-formed grammar: nested parentheses -/
def exNested : SetOfRules := ⟨[
  (c!"main", .and [.ruleName c!"ws", .ruleName c!"expr", .not (.simple .dot)]),
  (c!"expr", .or [.and [.simple (.literal c!"("), .rep (.ruleName c!"expr") 0 none,
    .simple (.literal c!")")], .and [.simple (.mtch [] [('a', 'z')]), .ruleName c!"ws"]]),
  (c!"ws", .rep (.simple (.literal c!" ")) 0 none)]⟩

example : WellFormed (denotes exNested) :=
  wf_of_check (nul := [c!"ws"]) (ranks := [c!"ws", c!"expr", c!"main"]) (by decide +kernel)

/-! ### C13 -/

theorem diverges_of_no_outcome {R : SetOfRules} {s : Str} (ha : Ascii s)
    (h : ∀ o, ¬ Peg (denotes R) (.ruleName c!"main") s o) : parse s R = .diverge := by
  have hr : runRule R (Status.init s) c!"main" = .diverge := by
    cases hx : runRule R (Status.init s) c!"main" with
    | ok x => exact absurd (runRule_main_ok (st := x.1) (t := x.2) hx) (h _)
    | err er =>
      rcases runRule_main_err hx with ⟨_, h1⟩ | ⟨_, _, _, _, _, h1⟩
      · exact absurd h1 (h _)
      · exact absurd h1 (h _)
    | panic => exact absurd hx (runRule_ne_panic ha (invP_init s))
    | diverge => rfl
  rw [parse_eq, hr]

/-- **C13** is false, in general: if matching `main` against `s` calls a rule on a text `t` on which that
rule (possibly through others) calls itself again, `parse` does not return. -/
theorem C13_left_recursion_diverges {R : SetOfRules} {s t n : Str} {body : Expr} (ha : Ascii s)
    (hm : Visits (denotes R) (.ruleName c!"main") s (.ruleName n) t) (hg : denotes R n = some body)
    (hc : Visits (denotes R) body t (.ruleName n) t) : parse s R = .diverge :=
  diverges_of_no_outcome ha (fun _ h => no_outcome_of_reentry hg hc h hm)

/-- **C13** is false, in general: if matching `main` against `s` involves, on a text `t`, an unbounded
repetition of something that matches `t` without consuming, `parse` does not return. -/
theorem C13_empty_repetition_diverges {R : SetOfRules} {s t : Str} {b : Expr} {mn : Nat} {ns : List Node}
    (ha : Ascii s) (hm : Visits (denotes R) (.ruleName c!"main") s (.rep b mn none) t)
    (hb : Peg (denotes R) b t (.ok t ns)) : parse s R = .diverge :=
  diverges_of_no_outcome ha (no_outcome_of_visit hm (fun _ => no_outcome_of_empty_rep hb))

/-- `main = main "a" / "b"` diverges on every ASCII text. -/
theorem C13_false_left_recursion {s : Str} (ha : Ascii s) :
    parse s ⟨[(c!"main", .or [.and [.ruleName c!"main", .simple (.literal c!"a")],
      .simple (.literal c!"b")])]⟩ = .diverge :=
  C13_left_recursion_diverges ha (.refl _ _) rfl (.or_head (.and_head (.refl _ _)))

/-- `main = ("a"?)*` diverges on "b". -/
theorem C13_false_empty_repetition :
    parse c!"b" ⟨[(c!"main", .rep (.rep (.simple (.literal c!"a")) 0 (some 1)) 0 none)]⟩ = .diverge :=
  C13_empty_repetition_diverges (by decide) (.body rfl (.refl _ _))
    (.rep_stop (by simp) (.lit_fail _ _ (by decide)))

end DP
