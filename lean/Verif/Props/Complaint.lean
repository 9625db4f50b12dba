/-
Property C48: what `rules_from_peg` answers on every text, errors included.
-/
import Verif.Spec.Complaint
import Verif.Proofs.SynCheck
import Verif.Props.Report
import Verif.Props.Syntax

namespace DP
open Spec Spec.Syntax

/-- **C48**: a document without meaning has a first fault, and the error of `rules_from_peg` tells its cause
and the constructs around it. -/
theorem C48_complaint {d : Doc} (h : d.OK) (ha : Ascii d.str) {p : Complaint} (hp : d.fault = some p) :
    rulesFromPeg d.str = .err p.error := by
  rcases rulesFromPeg_doc' h ha with ⟨_, _, h1, _⟩ | ⟨q, _, h1, h2⟩
  · rw [hp] at h1; cases h1
  · rw [hp] at h1; cases h1; exact h2

/-- **C48**: documents have a fault or a meaning, and not both. -/
theorem C48_fault_or_meaning {d : Doc} (h : d.OK) (ha : Ascii d.str) : d.fault = none ↔ d.denote ≠ none := by
  have h0 : d.denote = (defsRules SetOfRules.empty d.defs).map grammar := (defs_denote d.defs _ C22_keys_unique.1).1
  rcases rulesFromPeg_doc' h ha with ⟨_, h1, h2, _⟩ | ⟨q, h1, h2, _⟩
  · rw [h0, h1, h2]; simp
  · rw [h0, h1, h2]; simp

/-- **C48**: all the errors of `rules_from_peg`. Those of the parser are passed on, the others are complaints
about documents. -/
theorem C48_errors (s : Str) (e : PegError) :
    rulesFromPeg s = .err e ↔
      (∃ pe, e = .parser pe ∧ ¬ Panics (grammar PegRules.parsePeg) false s ∧
        ∃ f, Rejects (grammar PegRules.parsePeg) false s f ∧ Describes s f pe) ∨
      (Ascii s ∧ ∃ d : Doc, d.OK ∧ d.str = s ∧ ∃ p, d.fault = some p ∧ e = p.error) := by
  have h1 : ∀ pe, parse s PegRules.parsePeg = .err pe ↔ ¬ Panics (grammar PegRules.parsePeg) false s ∧
      ∃ f, Rejects (grammar PegRules.parsePeg) false s f ∧ Describes s f pe := by
    intro pe
    rw [C47_parse_err_iff, denotes_peg]
  constructor
  · intro h
    cases hp : parse s PegRules.parsePeg with
    | err pe =>
      have := (C39_syntax_errors s pe).2 hp
      rw [h] at this
      cases this
      exact Or.inl ⟨pe, rfl, (h1 pe).1 hp⟩
    | panic => rw [rulesFromPeg_eq, hp] at h; cases h
    | diverge => rw [rulesFromPeg_eq, hp] at h; cases h
    | ok t =>
      have ha := C17_ok_only_on_ascii hp
      obtain ⟨d, h2, rfl⟩ := (C45_accepted_texts ha).1 ⟨t, hp⟩
      rcases rulesFromPeg_doc' h2 ha with ⟨R, _, _, h3⟩ | ⟨p, _, h3, h4⟩
      · rw [h] at h3; cases h3
      · rw [h] at h4
        cases h4
        exact Or.inr ⟨ha, d, h2, rfl, p, h3, rfl⟩
  · rintro (⟨pe, rfl, h⟩ | ⟨ha, d, h2, rfl, p, h3, rfl⟩)
    · exact (C39_syntax_errors s pe).2 ((h1 pe).2 h)
    · exact C48_complaint h2 ha h3

/-- **C48**: the panics of `rules_from_peg` are those of the parser on the built-in grammar. -/
theorem C48_panics (s : Str) : rulesFromPeg s = .panic ↔ Panics (grammar PegRules.parsePeg) false s := by
  have e := C47_parse_panic_iff s PegRules.parsePeg
  rw [denotes_peg] at e
  rw [← e, rulesFromPeg_eq]
  cases hp : parse s PegRules.parsePeg with
  | err pe => simp
  | panic => simp
  | diverge => simp
  | ok t =>
    rcases flatAst_ends hp with ⟨R, h, _⟩ | ⟨e', h, hn⟩
    · simp [h]
    · simp [h]

theorem complaint_error_inj : ∀ (p q : Complaint), p.error = q.error → p = q
  | ⟨[], c⟩, ⟨[], c'⟩, h => by cases h; rfl
  | ⟨[], _⟩, ⟨_ :: _, _⟩, h => by cases h
  | ⟨_ :: _, _⟩, ⟨[], _⟩, h => by cases h
  | ⟨d :: p, c⟩, ⟨d' :: q, c'⟩, h => by
    have h : PegError.peg d (some (Complaint.error ⟨p, c⟩)) = .peg d' (some (Complaint.error ⟨q, c'⟩)) := h
    simp only [PegError.peg.injEq, Option.some.injEq] at h
    have := complaint_error_inj _ _ h.2
    simp only [Complaint.mk.injEq] at this
    rw [h.1, this.1, this.2]

/-- **C48**: documents with the same ASCII text have the same fault. -/
theorem C48_unambiguous {d d' : Doc} (h : d.OK) (h' : d'.OK) (ha : Ascii d.str) (e : d.str = d'.str) :
    d.fault = d'.fault := by
  have ha' : Ascii d'.str := e ▸ ha
  rcases rulesFromPeg_doc' h ha with ⟨_, _, h1, h2⟩ | ⟨q, _, h1, h2⟩ <;>
  rcases rulesFromPeg_doc' h' ha' with ⟨_, _, h3, h4⟩ | ⟨q', _, h3, h4⟩ <;>
  rw [e, h4] at h2 <;> rw [h1, h3]
  · cases h2
  · cases h2
  · simp only [Out.err.injEq] at h2
    rw [complaint_error_inj _ _ h2]

/-- **C48**: how the complaint is displayed: the constructs from the outside in, then the cause. -/
theorem C48_display (p : Complaint) (dbgP : Error → Str) (dbgA : AstError → Str) :
    Peg.display dbgP dbgA p.error =
      (p.path.map fun d => d ++ c!" > ").flatten ++ (c!"AST(" ++ dbgA ⟨p.cause, none⟩ ++ c!")") := by
  obtain ⟨path, cause⟩ := p
  induction path with
  | nil => rfl
  | cons d path ih =>
    show d ++ c!" > " ++ Peg.display dbgP dbgA (Complaint.error ⟨path, cause⟩) = _
    rw [ih]
    simp

/-- **C48**: how any error of the module is displayed: the descriptions it is wrapped in, then itself. -/
theorem C48_display_any (path : List Str) (dbgP : Error → Str) (dbgA : AstError → Str) :
    (∀ p, Peg.display dbgP dbgA (path.foldr (fun d e => .peg d (some e)) (.parser p)) =
      (path.map fun d => d ++ c!" > ").flatten ++ (c!"Parser(" ++ dbgP p ++ c!")")) ∧
    (∀ a, Peg.display dbgP dbgA (path.foldr (fun d e => .peg d (some e)) (.ast a)) =
      (path.map fun d => d ++ c!" > ").flatten ++ (c!"AST(" ++ dbgA a ++ c!")")) ∧
    (∀ d, Peg.display dbgP dbgA (path.foldr (fun d e => .peg d (some e)) (.peg d none)) =
      (path.map fun d => d ++ c!" > ").flatten ++ d) := by
  have key : ∀ r, Peg.display dbgP dbgA (path.foldr (fun d e => .peg d (some e)) r) =
      (path.map fun d => d ++ c!" > ").flatten ++ Peg.display dbgP dbgA r := by
    intro r
    induction path with
    | nil => rfl
    | cons d path ih =>
      show d ++ c!" > " ++ Peg.display dbgP dbgA (path.foldr _ r) = _
      rw [ih]; simp
  exact ⟨fun p => key _, fun a => key _, fun d => key _⟩

/-- Every error is one of these. -/
theorem C48_display_any_covers : ∀ e : PegError, ∃ path : List Str,
    (∃ p, e = path.foldr (fun d e => .peg d (some e)) (.parser p)) ∨
    (∃ a, e = path.foldr (fun d e => .peg d (some e)) (.ast a)) ∨
    (∃ d, e = path.foldr (fun d e => .peg d (some e)) (.peg d none))
  | .parser p => ⟨[], .inl ⟨p, rfl⟩⟩
  | .ast a => ⟨[], .inr (.inl ⟨a, rfl⟩)⟩
  | .peg d none => ⟨[], .inr (.inr ⟨d, rfl⟩)⟩
  | .peg d (some e) => by
    obtain ⟨path, h⟩ := C48_display_any_covers e
    refine ⟨d :: path, h.imp ?_ (Or.imp ?_ ?_)⟩ <;> rintro ⟨x, rfl⟩ <;> exact ⟨x, rfl⟩

/-- an empty literal in a module -/
def exFault : Doc := ⟨[], .cons (.rule c!"main" [.sp] [.sp] (.cons (.item (.plain (.lit (.single c!"a"))) .nil) [.sp] [.sp]
    (.one (.item (.plain (.ref c!"x")) .nil))) ⟨[], .lf, []⟩)
  (.one (.module c!"m" [.sp] [.sp] (.one (.rule c!"x" [.sp] [.sp] (.one (.item (.star (.par [] (.one (.item (.plain (.lit (.double [.plain 'b'])))
    (.item [.sp] (.plain (.lit (.single []))) .nil))) [])) .nil)) ⟨[], .lf, []⟩)) ⟨[], .lf, []⟩))⟩

example : exFault.str = c!"main = 'a' / x\nm { x = (\"b\" '')*\n}\n" ∧
    rulesFromPeg exFault.str = .err (Complaint.error ⟨[c!"consuming main", c!"consuming grammar", c!"consuming module", c!"consuming grammar",
      c!"consuming rule", c!"consuming expr", c!"or:", c!"consuming or", c!"consuming and", c!"consuming rep_or_neg", c!"consuming atom_or_par",
      c!"n:parenth", c!"consuming parenth", c!"consuming expr", c!"or:", c!"consuming or", c!"consuming and", c!"consuming and",
      c!"consuming rep_or_neg", c!"consuming atom_or_par", c!"n:atom", c!"consuming atom", c!"n:literal", c!"consuming literal",
      c!"consuming lit_noesc"], c!"expected Val node"⟩) :=
  ⟨by decide +kernel, C48_complaint (docOK_sound (by decide +kernel)) (by decide +kernel) (by decide +kernel)⟩

example (dbgP : Error → Str) (dbgA : AstError → Str) :
    Peg.display dbgP dbgA (Complaint.error ⟨[c!"consuming main", c!"consuming grammar"], c!"expected Val node"⟩) =
      c!"consuming main > consuming grammar > AST(" ++ dbgA ⟨c!"expected Val node", none⟩ ++ c!")" := by
  rw [C48_display]
  rfl

/-- `error(...)` before the last element -/
example : rulesFromPeg c!"main = 'a' error(\"x\") 'b'\n" = .err (.peg c!"consuming main" (some (.peg c!"consuming grammar" (some
    (.peg c!"consuming rule" (some (.peg c!"consuming expr" (some (.peg c!"or:" (some (.peg c!"consuming or" (some (.peg c!"consuming and" (some
      (.ast ⟨c!"expected end rule for and", none⟩))))))))))))))) :=
  C48_complaint (d := ⟨[], .one (.rule c!"main" [.sp] [.sp] (.one (.item (.plain (.lit (.single c!"a")))
      (.err [.sp] [] [] (.double [.plain 'x']) [] (.item [.sp] (.plain (.lit (.single c!"b"))) .nil)))) ⟨[], .lf, []⟩)⟩)
    (docOK_sound (by decide +kernel)) (by decide +kernel) rfl

end DP
