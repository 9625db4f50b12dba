/-
Property C65: the program of the crate (src/main.rs).
-/
import Verif.Model.Program
import Verif.Props.SelfHost

namespace DP
open Spec Gcode Program

theorem printed_iff {R : SetOfRules} (h : (R.entries.map fun ne => rule2code ne.1 ne.2).Perm PegText.tableSource) (code : Str) :
    RustFromRules R code ↔ ∃ l : List Str, l.Perm PegText.tableSource ∧ code = layOut l := by
  unfold RustFromRules
  constructor
  · rintro ⟨order, hp, rfl⟩
    exact ⟨_, (hp.map _).trans h, rustFromEntries_layout order⟩
  · rintro ⟨l, hl, rfl⟩
    obtain ⟨Z, hZ, rfl⟩ := perm_of_map (hl.trans h.symm) R.entries rfl
    exact ⟨Z, hZ, (rustFromEntries_layout Z).symm⟩

/-- **C65**: The program does not panic. It prints the entries of the table of src/peg/rules.rs, in some order, one on
each line, with commas between them, and an end of line; every order is possible and nothing else is printed. -/
theorem C65_prints (sty : Debug.Style) (r : Ran) : Program.main sty r ↔
    r.panicked = false ∧ ∃ l : List Str, l.Perm PegText.tableSource ∧ r.printed = layOut l ++ c!"\n" := by
  obtain ⟨R, h1, h2⟩ := C42_table_entries
  rw [Program.main, printRules2parsePeg, h1]
  simp only [printed_iff h2]
  constructor
  · rintro ⟨code, ⟨l, hl, rfl⟩, rfl⟩
    exact ⟨rfl, l, hl, rfl⟩
  · rintro ⟨h3, l, hl, h4⟩
    refine ⟨_, ⟨l, hl, rfl⟩, ?_⟩
    cases r
    simp_all

/-- **C65**: what was pasted into src/peg/rules.rs is, but for the blanks at the end, something that the program can
print. -/
theorem C65_pasted (sty : Debug.Style) : ∃ r, Program.main sty r ∧ pasted = r.printed ++ c!"\n  " := by
  refine ⟨⟨layOut PegText.tableSource ++ c!"\n", false⟩, (C65_prints _ _).2 ⟨rfl, _, .refl _, rfl⟩, ?_⟩
  show pasted = layOut PegText.tableSource ++ c!"\n" ++ c!"\n  "
  rw [List.append_assoc]
  unfold pasted
  cases PegText.tableSource with
  | nil => rfl
  | cons x xs => rfl

theorem rustRules_blank {s : Str} {l} (h : RustRules s l) {w : Str} (hw : Blank w) : RustRules (s ++ w) l := by
  have two {a b : Str} (ha : Blank a) (hb : Blank b) : Blank (a ++ b) := by
    unfold Blank at *
    intro c hc
    rcases List.mem_append.1 hc with hc | hc
    · exact ha c hc
    · exact hb c hc
  induction h with
  | nil h => exact .nil (two h hw)
  | one h h' =>
    rw [List.append_assoc]
    exact .one h (two h' hw)
  | cons h h' h1 h2 ih =>
    rw [List.append_assoc]
    exact .cons h h' ih h2

/-- **C65**: "the result has to be pasted in peg::rules.rs": whatever the program printed, between the parentheses of
`rules!( ... )`, with any blanks after it, it is read in one way, and builds the rules of `parse_peg()`. -/
theorem C65_paste (sty : Debug.Style) {r : Ran} (h : Program.main sty r) {w : Str} (hw : Blank w) :
    ∃ l, (∀ l', RustRules (r.printed ++ w) l' ↔ l' = l) ∧ ∀ n, grammar (.ofList l) n = grammar PegRules.parsePeg n := by
  obtain ⟨R, h1, h2⟩ := C42_bootstrap
  rw [Program.main, printRules2parsePeg, h1] at h
  obtain ⟨code, h3, rfl⟩ := h
  obtain ⟨l, h4, _, h5⟩ := h2 code h3
  have hr := rustRules_blank (rustRules_blank ((h4 l).2 rfl) (w := c!"\n") (by unfold Blank; decide)) hw
  exact ⟨l, fun l' => ⟨fun h => (rustRules_det hr h).symm, fun h => h ▸ hr⟩, h5⟩

/-- **C65**: in particular the text that is there now. -/
theorem C65_rules_rs : ∃ l, (∀ l', RustRules pasted l' ↔ l' = l) ∧ ∀ n, grammar (.ofList l) n = grammar PegRules.parsePeg n := by
  obtain ⟨r, h1, h2⟩ := C65_pasted ⟨fun _ => true, true, true, true⟩
  rw [h2]
  exact C65_paste _ h1 (by unfold Blank; decide)

/-- the program has a run -/
example (sty : Debug.Style) : ∃ r, Program.main sty r ∧ r.panicked = false := by
  obtain ⟨r, h, _⟩ := C65_pasted sty
  exact ⟨r, h, ((C65_prints sty r).1 h).1⟩

/-- and more than one: the order of the rules is not fixed -/
example (sty : Debug.Style) : ∃ r r', Program.main sty r ∧ Program.main sty r' ∧ r ≠ r' := by
  refine ⟨⟨layOut PegText.tableSource ++ c!"\n", false⟩, ⟨layOut PegText.tableSource.reverse ++ c!"\n", false⟩,
    (C65_prints _ _).2 ⟨rfl, _, .refl _, rfl⟩, (C65_prints _ _).2 ⟨rfl, _, List.reverse_perm _, rfl⟩, by decide +kernel⟩

end DP
