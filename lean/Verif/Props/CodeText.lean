/-
Property C40: the exact text of the code emitted by `rust_from_rules`.
-/
import Verif.Spec.CodeText
import Verif.Props.Gcode

namespace DP
open Spec Gcode

theorem written_iff {c w} : Written c w ↔ w = escOf c := by
  constructor
  · intro h
    cases h with
    | other h =>
      simp only [List.mem_cons, List.not_mem_nil, or_false, not_or] at h
      simp [escOf, h]
    | _ => rfl
  · rintro rfl
    unfold escOf
    split
    · next h => subst h; exact .lf
    split
    · next h => subst h; exact .cr
    split
    · next h => subst h; exact .tab
    split
    · next h => subst h; exact .quote
    · exact .other (by simp [*])

theorem writtenText_iff : ∀ {v w : Str}, WrittenText v w ↔ w = replaceEsc v
  | [], w => ⟨fun h => by cases h; rfl, by rintro rfl; exact .nil⟩
  | c :: v, w => by
    rw [replaceEsc_cons]
    constructor
    · intro h
      cases h with
      | cons h1 h2 => rw [written_iff.1 h1, writtenText_iff.1 h2]
    · rintro rfl
      exact .cons (written_iff.2 rfl) (writtenText_iff.2 rfl)

theorem bounds2code_text : ∀ rs : List (Char × Char), bounds2code [] rs = (rs.map rangeText).flatten
  | [] => rfl
  | (a, b) :: rs => by
    rw [bounds2code, bounds2code_text rs]
    rfl

theorem expr2code_ne (e : Expr) : expr2code e ≠ [] := by
  cases e with
  | simple a => cases a <;> simp [expr2code, atom2code, matchRules2code]
  | _ => simp [expr2code]

theorem mexpr2code_text : ∀ (es : List Expr) (acc : Str), acc ≠ [] →
    mexpr2code acc es = acc ++ (es.map fun e => c!", " ++ expr2code e).flatten
  | [], acc, _ => by simp [mexpr2code]
  | e :: es, acc, h => by
    have : acc.isEmpty = false := by cases acc <;> simp_all
    rw [mexpr2code, this, mexpr2code_text es _ (by simp)]
    simp

theorem intercalate_text (x : Str) : ∀ xs : List Str, List.intercalate c!", " (x :: xs) = x ++ (xs.map (c!", " ++ ·)).flatten
  | [] => by simp [List.intercalate]
  | y :: ys => by
    have := intercalate_text y ys
    simp only [List.intercalate, List.intersperse_cons_cons, List.flatten_cons, List.map_cons] at this ⊢
    rw [this]
    simp

theorem mexpr2code_intercalate (es : List Expr) : mexpr2code [] es = List.intercalate c!", " (es.map expr2code) := by
  cases es with
  | nil => rfl
  | cons e es =>
    rw [mexpr2code, List.isEmpty_nil, if_pos rfl, mexpr2code_text _ _ (expr2code_ne e), List.map_cons, intercalate_text,
      List.map_map]
    rfl

mutual
theorem emits_code : ∀ e : Expr, Emits e (expr2code e)
  | .simple (.literal v) => by rw [expr2code, atom2code]; exact .lit (writtenText_iff.2 rfl)
  | .simple (.error v) => by rw [expr2code, atom2code]; exact .error (writtenText_iff.2 rfl)
  | .simple (.mtch cs rs) => by rw [expr2code, atom2code, matchRules2code, bounds2code_text]; exact .cls cs rs
  | .simple .dot => .dot
  | .simple .eof => .eof
  | .and es => by rw [expr2code, mexpr2code_intercalate]; exact .and (emits_codes es)
  | .or es => by rw [expr2code, mexpr2code_intercalate]; exact .or (emits_codes es)
  | .not e => by rw [expr2code]; exact .not (emits_code e)
  | .rep e mn none => by
    have := Emits.unbounded (mn := mn) (emits_code e)
    simpa [expr2code, natCode] using this
  | .rep e mn (some mx) => by
    have := Emits.bounded (mn := mn) (mx := mx) (emits_code e)
    simpa [expr2code, natCode] using this
  | .ruleName n => by rw [expr2code]; exact .ruleName n
theorem emits_codes : ∀ es : List Expr, List.Forall₂ Emits es (es.map expr2code)
  | [] => .nil
  | e :: es => .cons (emits_code e) (emits_codes es)
end

mutual
theorem emits_only : ∀ {e : Expr} {t}, Emits e t → t = expr2code e
  | .simple (.literal v), _, .lit h => by rw [expr2code, atom2code, writtenText_iff.1 h]
  | .simple (.error v), _, .error h => by rw [expr2code, atom2code, writtenText_iff.1 h]
  | .simple (.mtch cs rs), _, .cls _ _ => by rw [expr2code, atom2code, matchRules2code, bounds2code_text]
  | .simple .dot, _, .dot => rfl
  | .simple .eof, _, .eof => rfl
  | .and es, _, .and h => by rw [expr2code, mexpr2code_intercalate, emits_onlys h]
  | .or es, _, .or h => by rw [expr2code, mexpr2code_intercalate, emits_onlys h]
  | .not e, _, .not h => by rw [expr2code, emits_only h]
  | .rep e mn none, _, .unbounded h => by rw [emits_only h]; simp [expr2code, natCode]
  | .rep e mn (some mx), _, .bounded h => by rw [emits_only h]; simp [expr2code, natCode]
  | .ruleName n, _, .ruleName _ => by rw [expr2code]
theorem emits_onlys : ∀ {es : List Expr} {ts}, List.Forall₂ Emits es ts → ts = es.map expr2code
  | [], _, .nil => rfl
  | e :: es, _, .cons h h' => by rw [emits_only h, emits_onlys h']; rfl
end

/-- **C40**: the exact text of the generated code, up to the order of the rules. -/
theorem C40_text {R : SetOfRules} {code : Str} :
    RustFromRules R code ↔ ∃ (order : List (Str × Expr)) (texts : List Str), order.Perm R.entries ∧
      List.Forall₂ (fun ne t => ∃ b, Emits ne.2 b ∧ t = c!"r#\"" ++ ne.1 ++ c!"\"# => " ++ b) order texts ∧
      code = layOut texts := by
  rw [C40_layout]
  refine exists_congr fun order => ?_
  constructor
  · rintro ⟨h1, h2⟩
    refine ⟨_, h1, ?_, h2⟩
    rw [List.forall₂_map_right_iff, List.forall₂_same]
    exact fun ne _ => ⟨_, emits_code ne.2, rfl⟩
  · rintro ⟨texts, h1, h2, rfl⟩
    refine ⟨h1, congrArg layOut ?_⟩
    clear h1
    induction h2 with
    | nil => rfl
    | cons h _ ih =>
      obtain ⟨b, h1, rfl⟩ := h
      rw [ih, emits_only h1]
      rfl

/-- all kinds of atoms in one sequence -/
example : Emits (.and [.simple (.literal c!"a\"\\"), .simple (.mtch c!"x" [('a', 'z')]), .simple .eof, .rep (.not (.simple .dot)) 1 (some 10)])
    c!"and!(lit!(\"a\\\"\\\"), ematch!(chlist r#\"x\"#  , from 'a', to 'z' ), eof!(), rep!(not!(dot!()), 1, 10))" := by
  have h1 : Emits (.simple (.literal c!"a\"\\")) c!"lit!(\"a\\\"\\\")" :=
    .lit (.cons (.other (by decide)) (.cons .quote (.cons (.other (by decide)) .nil)))
  exact .and (.cons h1 (.cons (.cls _ _) (.cons .eof (.cons (.bounded (.not .dot)) .nil))))

end DP
