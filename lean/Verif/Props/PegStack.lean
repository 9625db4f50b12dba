/-
C85: how many calls of its recursive functions `rules_from_peg` has in progress at a time.
-/
import Verif.Model.PegStack
import Verif.Proofs.PegStack
import Verif.Props.Syntax

namespace DP
open Spec Spec.Syntax

theorem convertWithin_eq (d : Nat) (s : Str) : convertWithin d s =
    match parse s PegRules.parsePeg with
    | .ok t => (match Peg.rulesFromFlatAstF d (pegFlat t) with | .diverge => none | x => some x)
    | .err e => some (.err (.parser e))
    | .panic => some .panic
    | .diverge => some .diverge := rfl

theorem convertWithin_none {d s} (h : convertWithin d s = none) :
    ∃ t, parse s PegRules.parsePeg = .ok t ∧ Peg.rulesFromFlatAstF d (pegFlat t) = .diverge := by
  rw [convertWithin_eq] at h
  cases hp : parse s PegRules.parsePeg with
  | ok t =>
    rw [hp] at h
    refine ⟨t, rfl, ?_⟩
    cases hr : Peg.rulesFromFlatAstF d (pegFlat t) with
    | diverge => rfl
    | _ => simp only [hr] at h; cases h
  | _ => rw [hp] at h; cases h

/-- **C85**: what is returned within the bound is what `rules_from_peg` returns. -/
theorem C85_same_answer {d s o} (h : convertWithin d s = some o) : rulesFromPeg s = o := by
  rw [convertWithin_eq] at h
  rw [rulesFromPeg_eq]
  cases hp : parse s PegRules.parsePeg with
  | ok t =>
    rw [hp] at h
    show rulesFromFlatAst (pegFlat t) = o
    have hstep := fun f => Peg.flatAst_step f (pegFlat t)
    cases hr : Peg.rulesFromFlatAstF d (pegFlat t) with
    | diverge => simp only [hr] at h; cases h
    | ok R => simp only [hr] at h; cases h; exact limit_of hstep (n := d) hr (by simp)
    | err e => simp only [hr] at h; cases h; exact limit_of hstep (n := d) hr (by simp)
    | panic => simp only [hr] at h; cases h; exact limit_of hstep (n := d) hr (by simp)
  | _ => rw [hp] at h; cases h; rfl

/-- **C85**: a larger bound changes nothing. -/
theorem C85_more_calls {d d' s o} (h : convertWithin d s = some o) (hd : d ≤ d') : convertWithin d' s = some o := by
  rw [convertWithin_eq] at h ⊢
  cases hp : parse s PegRules.parsePeg with
  | ok t =>
    rw [hp] at h
    dsimp only at h ⊢
    have hstep := fun f => Peg.flatAst_step f (pegFlat t)
    cases hr : Peg.rulesFromFlatAstF d (pegFlat t) with
    | diverge => simp only [hr] at h; cases h
    | ok R => simp only [hr] at h; rw [mono_of_step hstep hd hr (by simp)]; exact h
    | err e => simp only [hr] at h; rw [mono_of_step hstep hd hr (by simp)]; exact h
    | panic => simp only [hr] at h; rw [mono_of_step hstep hd hr (by simp)]; exact h
  | _ => rw [hp] at h; exact h

theorem flat_enough {s t d} (h : parse s PegRules.parsePeg = .ok t) (hd : 2 * (pegFlat t).length + 1 ≤ d) :
    Peg.rulesFromFlatAstF d (pegFlat t) ≠ .diverge := by
  have hm := Peg.main_ends (f := d) (ctx := .new) (peg_flatOK h) hd
  show (Peg.consumeMain d (pegFlat t) .new >>= fun x =>
    if ! x.2.1.isEmpty then .err (Peg.errorPegS c!"expected empty nodes after processing main")
    else .ok x.1) ≠ _
  match hc : Peg.consumeMain d (pegFlat t) .new with
  | .ok (R, n', c) =>
    show (if (! n'.isEmpty) = true then _ else _) ≠ _
    split <;> simp
  | .err e => intro h; cases h
  | .panic => intro h; cases h
  | .diverge => rw [hc] at hm; exact hm.elim

/-- **C85**: calls in proportion to the text suffice, for every text. -/
theorem C85_linear : ∃ K, ∀ s d, K * (s.length + 1) ≤ d → convertWithin d s = some (rulesFromPeg s) := by
  obtain ⟨K, hK⟩ := C76_size PegRules.parsePeg
  refine ⟨4 * K + 1, fun s d hd => ?_⟩
  cases h : convertWithin d s with
  | some o => rw [C85_same_answer h]
  | none =>
    obtain ⟨t, hp, hr⟩ := convertWithin_none h
    refine absurd hr (flat_enough hp ?_)
    obtain ⟨_, _, _, cs, rfl⟩ := peg_parse_ok hp
    have h1 := pegFlat_length c!"main" cs
    have h2 := hK s _ hp
    have h3 : (4 * K + 1) * (s.length + 1) = 4 * (K * (s.length + 1)) + (s.length + 1) := by rw [Nat.add_mul, Nat.mul_assoc, Nat.one_mul]
    omega

theorem needs {d s R} (h : convertWithin d s = some (.ok R)) :
    Peg.Within s d R ∧ ('{' ∉ s → R.entries.length + 2 ≤ d) := by
  rw [convertWithin_eq] at h
  cases hp : parse s PegRules.parsePeg with
  | ok t =>
    rw [hp] at h
    obtain ⟨hg, hb⟩ := peg_good hp
    have hm := Peg.main_oks (f := d) (ctx := .new) hg
    have hr : Peg.rulesFromFlatAstF d (pegFlat t) = .ok R := by
      cases hr : Peg.rulesFromFlatAstF d (pegFlat t) with
      | ok R' => simp only [hr] at h; cases h; rfl
      | _ => simp only [hr] at h; cases h
    have hdef : Peg.rulesFromFlatAstF d (pegFlat t) = (Peg.consumeMain d (pegFlat t) .new >>= fun x =>
      if ! x.2.1.isEmpty then .err (Peg.errorPegS c!"expected empty nodes after processing main")
      else .ok x.1) := rfl
    rw [hdef] at hr
    match hc : Peg.consumeMain d (pegFlat t) .new with
    | .ok (R', n', c) =>
      rw [hc] at hr hm
      replace hr : (if (! n'.isEmpty) = true then (.err (Peg.errorPegS c!"expected empty nodes after processing main") : Out PegError SetOfRules)
        else .ok R') = .ok R := hr
      split at hr
      · cases hr
      · cases hr
        exact ⟨hm.1.1, fun h => hm.1.2 (hb h)⟩
    | .err e => rw [hc] at hr; cases hr
    | .panic => rw [hc] at hr; cases hr
    | .diverge => rw [hc] at hr; cases hr
  | _ => rw [hp] at h; cases h

/-- **C85**: every rule read needs calls in progress in proportion to the parts of its sequences and choices, the ranges of its
classes, the dots of its names and the escapes of its literals, although none of these is nested in another. -/
theorem C85_needs {s R d n e} (h : rulesFromPeg s = .ok R) (hne : (n, e) ∈ R.entries) (hd : convertWithin d s ≠ none) :
    n.count '.' + 1 ≤ d ∧ spread s e + 4 ≤ d := by
  obtain ⟨o, ho⟩ := Option.ne_none_iff_exists'.1 hd
  have := C85_same_answer ho
  rw [h] at this
  subst this
  exact (needs ho).1 _ hne

/-- **C85**: so does a text without modules, in proportion to the number of rules. -/
theorem C85_rules {s R d} (h : rulesFromPeg s = .ok R) (hb : '{' ∉ s) (hd : convertWithin d s ≠ none) : R.entries.length + 2 ≤ d := by
  obtain ⟨o, ho⟩ := Option.ne_none_iff_exists'.1 hd
  have := C85_same_answer ho
  rw [h] at this
  subst this
  exact (needs ho).2 hb

/-- **C85**: no number of calls is enough for all texts: a literal of `n` escapes needs more than `n + 3`. -/
theorem C85_long_literal (n : Nat) :
    rulesFromPeg (c!"main = \"" ++ (List.replicate n c!"\\r").flatten ++ c!"\"\n") =
      .ok ⟨[(c!"main", .simple (.literal (List.replicate n '\r')))]⟩ ∧
    convertWithin (n + 3) (c!"main = \"" ++ (List.replicate n c!"\\r").flatten ++ c!"\"\n") = none := by
  have e : ∀ n, (List.replicate n '\r').flatMap escapeChar = (List.replicate n c!"\\r").flatten := by
    intro n
    induction n with
    | zero => rfl
    | succ n ih => rw [List.replicate_succ, List.flatMap_cons, ih, List.replicate_succ, List.flatten_cons]; rfl
  have h1 := C34_escaped_literal (v := List.replicate n '\r') (fun c hc => by rw [List.eq_of_mem_replicate hc]; decide)
  have e1 : c!"main = " ++ quoted (List.replicate n '\r') ++ c!"\n" = c!"main = \"" ++ (List.replicate n c!"\\r").flatten ++ c!"\"\n" := by
    rw [quoted, e]
    simp
  rw [e1] at h1
  refine ⟨h1, ?_⟩
  by_contra hne
  have h2 := (C85_needs h1 (List.mem_singleton_self _) hne).2
  have hnot : '\r' ∉ c!"main = \"" ++ (List.replicate n c!"\\r").flatten ++ c!"\"\n" := by
    intro hm
    simp only [List.mem_append, List.mem_flatten] at hm
    rcases hm with (hm | ⟨l, hl, hm⟩) | hm
    · exact absurd hm (by decide)
    · rw [List.eq_of_mem_replicate hl] at hm
      exact absurd hm (by decide)
    · exact absurd hm (by decide)
  have h3 : ∀ s, '\r' ∉ s → escaped s (List.replicate n '\r') = n := by
    intro s hs
    unfold escaped
    rw [List.countP_replicate]
    simp [hs]
  rw [spread, h3 _ hnot] at h2
  omega

/-! ### Examples -/

/-- a text on which it can be run -/
theorem convertWithin_run {N d s t} (h : parseWithDebugF N s PegRules.parsePeg false = .ok t) :
    convertWithin d s = match Peg.rulesFromFlatAstF d (pegFlat t) with | .diverge => none | x => some x := by
  rw [convertWithin_eq, parse_of_fuel h (by simp)]

/-- whether that many calls suffice, run -/
def suffice (d : Nat) (s : Str) : Bool :=
  match parseWithDebugF 200 s PegRules.parsePeg false with
  | .ok t => (match Peg.rulesFromFlatAstF d (pegFlat t) with | .diverge => false | _ => true)
  | _ => true

theorem suffice_none {d s} (h : suffice d s = false) : convertWithin d s = none := by
  unfold suffice at h
  cases hp : parseWithDebugF 200 s PegRules.parsePeg false with
  | ok t =>
    rw [convertWithin_run hp]
    rw [hp] at h
    cases hr : Peg.rulesFromFlatAstF d (pegFlat t) with
    | diverge => rfl
    | _ => simp only [hr] at h; cases h
  | _ => rw [hp] at h; cases h

theorem suffice_some {d s} (hp : (match parseWithDebugF 200 s PegRules.parsePeg false with | .ok _ => true | _ => false) = true)
    (h : suffice d s = true) : convertWithin d s ≠ none := by
  unfold suffice at h
  cases hq : parseWithDebugF 200 s PegRules.parsePeg false with
  | ok t =>
    rw [convertWithin_run hq]
    rw [hq] at h
    cases hr : Peg.rulesFromFlatAstF d (pegFlat t) with
    | diverge => simp only [hr] at h; cases h
    | _ => simp
  | _ => rw [hq] at hp; cases hp

/-- one rule that is one dot: ten calls, eight of them for the expression -/
example : convertWithin 9 c!"main = .\n" = none ∧ convertWithin 10 c!"main = .\n" ≠ none :=
  ⟨suffice_none (by decide +kernel), suffice_some (by decide +kernel) (by decide +kernel)⟩

/-- three rules: the last is read two calls further down -/
example : convertWithin 11 c!"main = .\na = .\nb = .\n" = none ∧ convertWithin 12 c!"main = .\na = .\nb = .\n" ≠ none :=
  ⟨suffice_none (by decide +kernel), suffice_some (by decide +kernel) (by decide +kernel)⟩

/-- four alternatives: the last is read three calls further down -/
example : convertWithin 12 c!"main = ./././.\n" = none ∧ convertWithin 13 c!"main = ./././.\n" ≠ none :=
  ⟨suffice_none (by decide +kernel), suffice_some (by decide +kernel) (by decide +kernel)⟩

/-- a long literal without escapes is one value -/
example : convertWithin 12 c!"main = \"abcdefghij\"\n" ≠ none := suffice_some (by decide +kernel) (by decide +kernel)

example : spread [] (.or [.simple .dot, .and [.simple .dot, .ruleName c!"a.b"]]) = 5 := by decide

end DP
