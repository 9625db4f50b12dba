import Verif.Proofs.PegSlow
import Verif.Proofs.PegDeep
import Verif.Props.Effort

/-!
# C71: the work of reading a PEG text

`rules_from_peg` (src/peg/mod.rs) parses the text it is given with the built-in rules of src/peg/rules.rs. Those
rules are recursive and most of their alternatives start with the same parts, so nothing general keeps the parser
from taking exponentially many calls (C53). For these rules it does not happen: the calls are at most quadratic in
the length of the text, and there are texts for which they are. The calls nest only linearly deep.
-/

namespace DP
open Spec PegRules Spec.Syntax

theorem calls_bill {s m} (ha : Ascii s) (h : Uses s parsePeg m) : ∃ o, Bill GP (.ruleName c!"main") s (m.calls + 1) o := by
  have := billed ((C53_effort ha _ _).1 h)
  rwa [denotes_peg] at this

/-- **C71**: reading an ASCII text with the built-in rules takes at most quadratically many calls of `parse_expr`. -/
theorem C71_quadratic : ∃ K, ∀ s, Ascii s → ∃ m, Uses s parsePeg m ∧ m.calls ≤ K * (s.length + 1) ^ 2 := by
  obtain ⟨K, hK⟩ := peg_cost
  refine ⟨K, fun s ha => ?_⟩
  obtain ⟨m, hm⟩ := (C53_uses s parsePeg).1.mp (C12_well_formed_grammars_terminate pegWellFormed s).1
  obtain ⟨o, ho⟩ := calls_bill ha hm
  exact ⟨m, hm, by have := hK _ _ _ ho; omega⟩

theorem peg_heights : ∀ n e, parsePeg.get n = some e → height e ≤ 8 := by
  have h : ∀ ne ∈ parsePeg.entries, height ne.2 ≤ 8 := by decide +kernel
  intro n e hg
  exact h _ (mem_of_lookup hg)

theorem peg_entries : parsePeg.entries.length = 33 := by decide +kernel

/-- **C71**: and the calls nest at most linearly deep. -/
theorem C71_depth (fuel : Nat) (s : Str) : (used fuel s parsePeg).depth ≤ 264 * (s.length + 1) := by
  have := C52_depth pegWellFormed.no_left_recursion peg_heights fuel s
  rw [peg_entries] at this
  omega

/-- `main = x x ... x`, followed by blanks -/
def slowText (m : Nat) : Str := c!"main = x" ++ (List.replicate m c!" x").flatten ++ List.replicate (m + 1) ' ' ++ c!"\n"

theorem slowText_doc (m : Nat) : slowText m = (slowDoc m).str := by
  rw [slowDoc_str, xTail_str, slowText, List.replicate_succ]
  simp

theorem slowText_length (m : Nat) : (slowText m).length = 3 * m + 10 := by
  simp [slowText]
  omega

theorem slowText_ascii (m : Nat) : Ascii (slowText m) := by
  intro c hc
  simp only [slowText, List.mem_append, List.mem_flatten, List.mem_replicate] at hc
  rcases hc with ((hc | ⟨l, ⟨_, rfl⟩, hc⟩) | ⟨_, rfl⟩) | hc
  · revert c; decide
  · revert c; decide
  · decide
  · revert c; decide

theorem xTail_denote : ∀ m, (xTail m).denote = some (List.replicate m (.ruleName c!"x"))
  | 0 => rfl
  | m + 1 => by rw [xTail, Tail.denote, xTail_denote m]; rfl

/-- **C71**, the bound is the right one: for each `m`, a text of 3 m + 10 characters that `rules_from_peg` accepts and that
takes at least m² calls to read. -/
theorem C71_attained (m : Nat) : (slowText m).length = 3 * m + 10 ∧ (∃ R, rulesFromPeg (slowText m) = .ok R) ∧
    ∃ u, Uses (slowText m) parsePeg u ∧ m * m ≤ u.calls := by
  refine ⟨slowText_length m, ?_, ?_⟩
  · have ha := slowText_ascii m
    rw [slowText_doc] at ha ⊢
    have hd : (slowDoc m).denote ≠ none := by
      simp [slowDoc, Doc.denote, Defs.denote, Def.denote, Alt.denote, Seq.denote, xTail_denote, Item.denote, Atom.denote]
    obtain ⟨x, hx⟩ := Option.ne_none_iff_exists'.1 hd
    obtain ⟨R, hR, _⟩ := (rulesFromPeg_denote (slowDoc_ok m) ha).1 x hx
    exact ⟨R, hR⟩
  · obtain ⟨u, hu⟩ := (C53_uses (slowText m) parsePeg).1.mp (C12_well_formed_grammars_terminate pegWellFormed _).1
    obtain ⟨o, ho⟩ := calls_bill (slowText_ascii m) hu
    rw [slowText_doc] at ho
    exact ⟨u, hu, by have := slow_cost m ho; omega⟩

/-- no linear bound holds -/
theorem C71_not_linear (K : Nat) : ∃ s u, Ascii s ∧ Uses s parsePeg u ∧ K * (s.length + 1) < u.calls := by
  obtain ⟨hl, _, u, hu, h⟩ := C71_attained (3 * K + 20)
  refine ⟨_, u, slowText_ascii _, hu, ?_⟩
  rw [hl]
  have e1 : (3 * K + 20) * (3 * K + 20) = 3 * K * (3 * K + 20) + 20 * (3 * K + 20) := Nat.add_mul _ _ _
  have e2 : K * (3 * (3 * K + 20) + 10 + 1) = 3 * K * (3 * K + 20) + 11 * K := by
    rw [show 3 * (3 * K + 20) + 10 + 1 = 3 * (3 * K + 20) + 11 from rfl, Nat.mul_add, Nat.mul_left_comm, Nat.mul_assoc]
    omega
  omega

/-- Each opening parenthesis that a right-hand side starts with takes thirteen more calls inside of one another, whatever
follows them: closing parentheses or not. -/
theorem C71_parentheses (n : Nat) (q : Str) (hq : Ascii q) :
    ∃ u, Uses (c!"main=" ++ (List.replicate (n + 1) '(' ++ q)) parsePeg u ∧ 13 * n < u.depth := by
  obtain ⟨u, hu⟩ := (C53_uses (c!"main=" ++ (List.replicate (n + 1) '(' ++ q)) parsePeg).1.mp (C12_well_formed_grammars_terminate pegWellFormed _).1
  refine ⟨u, hu, ?_⟩
  have ha : Ascii (c!"main=" ++ (List.replicate (n + 1) '(' ++ q)) := by
    intro c hc
    simp only [List.mem_append, List.mem_replicate] at hc
    rcases hc with hc | ⟨_, rfl⟩ | hc
    · revert c; decide
    · decide
    · exact hq c hc
  have h := (C53_effort ha _ _).1 hu
  rw [denotes_peg, List.replicate_succ', List.append_assoc] at h
  have := deep_main (q := '(' :: q) (NoGap.of (by decide)) n h
  omega

/-- `((...(.)...))` -/
def parAlt : Nat → Alt
  | 0 => .one (.item (.plain .dot) .nil)
  | n + 1 => .one (.item (.plain (.par [] (parAlt n) [])) .nil)

theorem parAlt_str (n : Nat) : (parAlt n).str = List.replicate n '(' ++ '.' :: List.replicate n ')' := by
  induction n with
  | zero => rfl
  | succ n ih =>
    simp only [parAlt, Alt.str, Seq.str, Item.str, Atom.str, Tail.str, ih, gapsStr]
    rw [List.replicate_succ, List.replicate_succ']
    simp

theorem parAlt_ok (n : Nat) : (parAlt n).OK := by
  induction n with
  | zero => simp [parAlt, Alt.OK, Seq.OK, Item.OK, Atom.OK, Tail.OK, LooksLikeError]
  | succ n ih => simp [parAlt, Alt.OK, Seq.OK, Item.OK, Atom.OK, Tail.OK, LooksLikeError, ih, GapsOK]

theorem parAlt_denote (n : Nat) : (parAlt n).denote = some [.simple .dot] := by
  induction n with
  | zero => rfl
  | succ n ih => simp [parAlt, Alt.denote, Seq.denote, Item.denote, Atom.denote, Tail.denote, ih, altOf, seqOf]

/-- **C71**, the depth is the right one: the text `main=((...(.)...))` with `n + 1` parentheses is accepted, means `main=.`, and
takes more than 13 n calls inside of one another to read. -/
theorem C71_depth_attained (n : Nat) :
    rulesFromPeg (c!"main=" ++ List.replicate (n + 1) '(' ++ c!"." ++ List.replicate (n + 1) ')' ++ c!"\n") = .ok ⟨[(c!"main", .simple .dot)]⟩ ∧
    ∃ u, Uses (c!"main=" ++ List.replicate (n + 1) '(' ++ c!"." ++ List.replicate (n + 1) ')' ++ c!"\n") parsePeg u ∧ 13 * n < u.depth := by
  have ha : Ascii (c!"." ++ List.replicate (n + 1) ')' ++ c!"\n") := by
    intro c hc
    simp only [List.mem_append, List.mem_replicate] at hc
    rcases hc with (hc | ⟨_, rfl⟩) | hc
    · revert c; decide
    · decide
    · revert c; decide
  obtain ⟨u, hu, hd⟩ := C71_parentheses n _ ha
  have hx : c!"main=" ++ List.replicate (n + 1) '(' ++ c!"." ++ List.replicate (n + 1) ')' ++ c!"\n" =
      c!"main=" ++ (List.replicate (n + 1) '(' ++ (c!"." ++ List.replicate (n + 1) ')' ++ c!"\n")) := by simp
  refine ⟨?_, u, by rw [hx]; exact hu, hd⟩
  let d : Doc := ⟨[], .one (.rule c!"main" [] [] (parAlt (n + 1)) ⟨[], .lf, []⟩)⟩
  have h1 : d.str = c!"main=" ++ List.replicate (n + 1) '(' ++ c!"." ++ List.replicate (n + 1) ')' ++ c!"\n" := by
    simp only [d, Doc.str, Defs.str, Def.str, parAlt_str, Term.gaps, gapsStr]
    simp
    rfl
  have h2 : d.OK := by
    refine ⟨trivial, ?_⟩
    simp only [d]
    rw [Defs.OK, Def.OK]
    exact ⟨main_valid, trivial, trivial, parAlt_ok _, trivial, by simp⟩
  have h3 : Ascii d.str := by
    rw [h1]
    intro c hc
    simp only [List.mem_append, List.mem_replicate] at hc
    rcases hc with (((hc | ⟨_, rfl⟩) | hc) | ⟨_, rfl⟩) | hc
    · revert c; decide
    · decide
    · revert c; decide
    · decide
    · revert c; decide
  rw [← h1]
  refine (rulesFromPeg_doc h2 h3).1 _ ?_
  simp [d, defsRules, defRules, parAlt_denote, altOf]
  rfl

/-- the empty text: refused at once -/
example : ∃ K, ∃ m, Uses [] parsePeg m ∧ m.calls ≤ K := by
  obtain ⟨K, h⟩ := C71_quadratic
  obtain ⟨m, h1, h2⟩ := h [] (fun c hc => by cases hc)
  exact ⟨K, m, h1, by simpa using h2⟩

/-- `main = x x x`, three blanks and the end of the line -/
example : slowText 2 = c!"main = x x x   \n" ∧ Uses (slowText 2) parsePeg ⟨697, 39⟩ :=
  ⟨by decide, 200, by decide +kernel, by decide +kernel⟩

example : rulesFromPeg c!"main=((.))\n" = .ok ⟨[(c!"main", .simple .dot)]⟩ := (C71_depth_attained 1).1

example : 39 ≤ 264 * ((slowText 2).length + 1) := by decide

end DP
