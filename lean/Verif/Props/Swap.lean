/-
C74: which characters a text is made of matters only through the literals and classes of the rules.
-/
import Mathlib.Data.Quot
import Verif.Proofs.Swap
import Verif.Proofs.Decide
import Verif.Props.Errors

namespace DP
open Spec

theorem swap_answers {R R' : SetOfRules} {α π} (hπ : Harmless π) (hR : ∀ n, Reach (grammar R) n → R'.get n = (R.get n).map (swapExpr α))
    (ha : ∀ n e a, Reach (grammar R) n → R.get n = some e → HasAtom e a → Mirrors π a (α a)) (st : Status) :
    runRule R' (swapStatus α π st) c!"main" = swapRule α π (runRule R st c!"main") :=
  limit_congr (K := swapRule α π) (chain_rule R st c!"main") rfl fun f =>
    (swap_runs hπ (N := Reach (grammar R)) (fun n hn e he => ⟨fun _ hr => .step hn he hr, fun a h => ha n e a hn he h⟩) hR f).1 st c!"main" .main

/-- **C74**: put other characters in place of the characters of the text, and other atoms in place of the atoms of the rules,
which do with the new characters what the old ones do with the old characters. The answer of `parse` and of `parse_debug` is what it was, with the new
characters in the leaves and in the line shown, and the new atoms in the description. Nothing else of the answer changes.
The new characters must be as many bytes long, and ends of lines must stay. -/
theorem C74_other_characters {R R' : SetOfRules} {α π} (hπ : Harmless π) (hR : ∀ n, Reach (grammar R) n → R'.get n = (R.get n).map (swapExpr α))
    (ha : ∀ n e a, Reach (grammar R) n → R.get n = some e → HasAtom e a → Mirrors π a (α a)) (s : Str) :
    parse (s.map π) R' = swapAnswer α π (parse s R) ∧ parseDebug (s.map π) R' = swapAnswer α π (parseDebug s R) := by
  constructor
  · rw [parse_eq, parse_eq]
    have := swap_answers hπ hR ha (Status.init s)
    rw [show swapStatus α π (Status.init s) = Status.init (s.map π) from rfl] at this
    rw [this, swap_byteLen hπ]
    rcases runRule R (Status.init s) c!"main" with ⟨st, t⟩ | e | _ | _
    · simp only [swapRule]
      by_cases hp : st.pos.n = byteLen s
      · simp [swapStatus, hp, swapAnswer]
      · simp only [swapStatus, hp, if_false]
        cases hpe : st.potentialError with
        | some e => simp [swapAnswer]
        | none =>
          simp only [Option.map_none]
          have := swap_fromStatus hπ (α := α) st .notConsumed .normal
          simp only [swapStatus, hpe, swapDescr, Option.map_none] at this
          unfold raise
          rw [this]
          cases fromStatus st .notConsumed .normal <;> rfl
    all_goals rfl
  · rw [parseDebug_eq, parseDebug_eq]
    have := swap_answers hπ hR ha (Status.initDebug s true)
    rw [show swapStatus α π (Status.initDebug s true) = Status.initDebug (s.map π) true from rfl] at this
    rw [this, swap_byteLen hπ]
    rcases runRule R (Status.initDebug s true) c!"main" with ⟨st, t⟩ | e | _ | _
    · simp only [swapRule]
      by_cases hp : st.pos.n = byteLen s
      · simp [swapStatus, hp, swapAnswer]
      · simp only [swapStatus, hp, if_false]
        cases hpe : st.potentialError with
        | some e => simp [swapAnswer]
        | none =>
          simp only [Option.map_none]
          have := swap_fromStatus hπ (α := α) st .notConsumed .normal
          simp only [swapStatus, hpe, swapDescr, Option.map_none] at this
          unfold raise
          rw [this]
          cases fromStatus st .notConsumed .normal <;> rfl
    all_goals rfl

theorem get_swapRules (α) (R : SetOfRules) (n : Str) : (swapRules α R).get n = (R.get n).map (swapExpr α) := by
  obtain ⟨es⟩ := R
  simp only [swapRules, SetOfRules.get]
  induction es with
  | nil => rfl
  | cons x xs ih =>
    rw [List.map_cons, List.lookup_cons, List.lookup_cons]
    cases n == x.1
    · exact ih
    · rfl

/-- the letters "a" and "b" exchanged -/
def exFlip (c : Char) : Char := if c = 'a' then 'b' else if c = 'b' then 'a' else c

theorem exFlip_flip (c : Char) : exFlip (exFlip c) = c := by
  unfold exFlip
  by_cases h : c = 'a'
  · subst h; decide
  · by_cases h' : c = 'b'
    · subst h'; decide
    · simp [h, h']

theorem exFlip_harmless : Harmless exFlip := by
  refine ⟨fun c => ?_, fun c => ?_, fun c => ?_⟩ <;> unfold exFlip <;> split
  all_goals first | (subst_vars; decide) | skip
  all_goals split
  all_goals first | (subst_vars; decide) | exact Iff.rfl | rfl

/-- `main = ('a' 'b')* [a-c]` -/
def exAbc : SetOfRules := ⟨[(c!"main", .and [.rep (.and [.simple (.literal c!"a"), .simple (.literal c!"b")]) 0 none, .simple (.mtch [] [('a', 'c')])])]⟩

/-- The letters exchanged in the text and in the literals; the class contains both, so it stays. -/
example (s : Str) : parse (s.map exFlip) ⟨[(c!"main", .and [.rep (.and [.simple (.literal c!"b"), .simple (.literal c!"a")]) 0 none, .simple (.mtch [] [('a', 'c')])])]⟩ =
    swapAnswer (fun | .literal l => .literal (l.map exFlip) | a => a) exFlip (parse s exAbc) := by
  refine (C74_other_characters exFlip_harmless (fun n _ => ?_) (fun n e a _ he ha => ?_) s).1
  · simp only [exAbc, SetOfRules.get, List.lookup_cons, List.lookup_nil]
    cases n == c!"main" <;> rfl
  · simp only [exAbc, SetOfRules.get, List.lookup_cons, List.lookup_nil] at he
    cases hn : n == c!"main"
    · rw [hn] at he; cases he
    · rw [hn] at he
      cases he
      have inj : ∀ x c, exFlip c = exFlip x → c = x := fun x c h => by rw [← exFlip_flip c, h, exFlip_flip]
      cases ha with
      | and hm ha =>
        simp only [List.mem_cons, List.not_mem_nil, or_false] at hm
        rcases hm with rfl | rfl
        · cases ha with
          | rep ha =>
            cases ha with
            | and hm ha =>
              simp only [List.mem_cons, List.not_mem_nil, or_false] at hm
              rcases hm with rfl | rfl <;> cases ha <;> exact .literal fun x _ => inj x
        · cases ha
          refine .mtch fun c => ?_
          simp only [InClass, List.not_mem_nil, false_or, List.mem_singleton, exists_eq_left]
          unfold exFlip
          split
          · subst_vars; decide
          · split
            · subst_vars; decide
            · exact Iff.rfl

/-! ### Characters that the rules do not tell apart -/

theorem interchangeable_equiv (R : SetOfRules) : Equivalence (Interchangeable R) where
  refl c := ⟨.rfl, .rfl, rfl, fun _ _ _ _ _ _ _ => rfl, fun _ _ _ _ _ _ _ => .rfl, fun _ _ _ _ _ _ => rfl⟩
  symm h := ⟨h.newline.symm, h.carriage.symm, h.bytes.symm, fun n e l hn he ha hc => (h.literal n e l hn he ha hc.symm).symm,
    fun n e cs rs hn he ha => (h.mtch n e cs rs hn he ha).symm, fun n e hn he ha hc => (h.eof n e hn he ha hc.symm).symm⟩
  trans := by
    intro c d e h1 h2
    refine ⟨h1.newline.trans h2.newline, h1.carriage.trans h2.carriage, h1.bytes.trans h2.bytes, ?_,
      fun n x cs rs hn he ha => (h1.mtch n x cs rs hn he ha).trans (h2.mtch n x cs rs hn he ha), ?_⟩
    · intro n x l hn he ha hc
      rcases hc with hc | hc
      · have := h1.literal n x l hn he ha (.inl hc)
        subst this
        exact h2.literal n x l hn he ha (.inl hc)
      · have := h2.literal n x l hn he ha (.inr hc)
        subst this
        exact h1.literal n x l hn he ha (.inr hc)
    · intro n x hn he ha hc
      rcases hc with hc | hc
      · have := h1.eof n x hn he ha (.inl hc)
        subst this
        exact h2.eof n x hn he ha (.inl hc)
      · have := h2.eof n x hn he ha (.inr hc)
        subst this
        exact h1.eof n x hn he ha (.inr hc)

/-- one character for all that are interchangeable -/
noncomputable def delegate (R : SetOfRules) (c : Char) : Char :=
  (Quotient.mk ⟨Interchangeable R, interchangeable_equiv R⟩ c).out

theorem delegate_self (R c) : Interchangeable R (delegate R c) c :=
  Quotient.exact (s := ⟨Interchangeable R, interchangeable_equiv R⟩) (Quotient.out_eq _)

theorem delegate_eq {R c d} : delegate R c = delegate R d ↔ Interchangeable R c d := by
  constructor
  · intro h
    have h1 := delegate_self R c
    rw [h] at h1
    exact (interchangeable_equiv R).trans ((interchangeable_equiv R).symm h1) (delegate_self R d)
  · intro h
    unfold delegate
    rw [Quotient.sound (s := ⟨Interchangeable R, interchangeable_equiv R⟩) h]

theorem map_fixed {π : Char → Char} {l : Str} (h : ∀ a ∈ l, π a = a) : l.map π = l := by
  induction l with
  | nil => rfl
  | cons a l ih => rw [List.map_cons, h a (by simp), ih fun x hx => h x (by simp [hx])]

theorem swapExpr_id : (∀ e, swapExpr (fun a => a) e = e) := by
  intro e
  refine Expr.rec (motive_1 := fun e => swapExpr (fun a => a) e = e) (motive_2 := fun es => swapExprs (fun a => a) es = es) ?_ ?_ ?_ ?_ ?_ ?_ ?_ ?_ e
  · intro a; rfl
  · intro es h; rw [swapExpr, h]
  · intro es h; rw [swapExpr, h]
  · intro e h; rw [swapExpr, h]
  · intro e mn mx h; rw [swapExpr, h]
  · intro n; rfl
  · rfl
  · intro e es h1 h2; rw [swapExprs, h1, h2]

theorem swapDescr_id (d : Descr) : swapDescr (fun a => a) d = d := by cases d <;> rfl

mutual
theorem shape_swap (π : Char → Char) : ∀ t, nodeShape (swapNode π t) = nodeShape t
  | .val v => by simp [swapNode, nodeShape]
  | .eof => rfl
  | .rule n ns => by rw [swapNode, nodeShape, nodeShape, shapes_swap π ns]
theorem shapes_swap (π : Char → Char) : ∀ ts, nodeShapes (swapNodes π ts) = nodeShapes ts
  | [] => rfl
  | t :: ts => by rw [swapNodes, nodeShapes, nodeShapes, shape_swap π t, shapes_swap π ts]
end

theorem answerShape_swap (π : Char → Char) (x : Out Error Node) : answerShape (swapAnswer (fun a => a) π x) = answerShape x := by
  cases x with
  | ok t => simp only [swapAnswer, answerShape, shape_swap]
  | err e => simp only [swapAnswer, answerShape, swapError, swapDescr_id, List.length_map]
  | panic => rfl
  | diverge => rfl

/-- **C74**: characters that the rules do not tell apart may be put in place of one another, one by one. The new text is accepted if and only if
the old one is, and with a tree of the same form; if it is refused, then at the same position, with the same description,
trace and priority. -/
theorem C74_interchangeable {R : SetOfRules} {s s' : Str} (h : List.Forall₂ (Interchangeable R) s s') :
    answerShape (parse s' R) = answerShape (parse s R) ∧ answerShape (parseDebug s' R) = answerShape (parseDebug s R) := by
  have hπ : Harmless (delegate R) := ⟨fun c => (delegate_self R c).newline, fun c => (delegate_self R c).carriage, fun c => (delegate_self R c).bytes⟩
  have ha : ∀ n e a, Reach (grammar R) n → R.get n = some e → HasAtom e a → Mirrors (delegate R) a a := by
    intro n e a hn he ha
    cases a with
    | literal l =>
      have h1 : l.map (delegate R) = l := map_fixed fun a hl => (delegate_self R a).literal n e l hn he ha (.inr hl)
      have h2 : Mirrors (delegate R) (.literal l) (.literal (l.map (delegate R))) :=
        .literal fun a hl c hc => (delegate_eq.1 hc).literal n e l hn he ha (.inr hl)
      rwa [h1] at h2
    | mtch cs rs => exact .mtch fun c => (delegate_self R c).mtch n e cs rs hn he ha
    | error m => exact .error m m
    | dot => exact .dot
    | eof => exact .eof (map_fixed fun a hl => (delegate_self R a).eof n e hn he ha (.inr hl))
  have hR : ∀ n, Reach (grammar R) n → R.get n = (R.get n).map (swapExpr fun a => a) := by
    intro n _
    rw [show swapExpr (fun a => a) = id from funext swapExpr_id, Option.map_id]; rfl
  have hs : s.map (delegate R) = s'.map (delegate R) := by
    induction h with
    | nil => rfl
    | cons h1 _ ih => rw [List.map_cons, List.map_cons, delegate_eq.2 h1, ih]
  have h1 := C74_other_characters hπ hR ha s
  have h2 := C74_other_characters hπ hR ha s'
  constructor
  · rw [← answerShape_swap (delegate R), ← answerShape_swap (delegate R) (parse s R), ← h1.1, ← h2.1, hs]
  · rw [← answerShape_swap (delegate R), ← answerShape_swap (delegate R) (parseDebug s R), ← h1.2, ← h2.2, hs]

/-- **C74**, the language: whether a text is accepted depends on its characters only up to interchangeable ones. -/
theorem C74_accepted {R : SetOfRules} {s s' : Str} (h : List.Forall₂ (Interchangeable R) s s') :
    (∃ t, parse s R = .ok t) ↔ ∃ t, parse s' R = .ok t := by
  have := (C74_interchangeable h).1
  rcases h1 : parse s R with t | e | _ | _ <;> rcases h2 : parse s' R with t' | e' | _ | _ <;> rw [h1, h2] at this <;>
    simp_all [answerShape]

/-- `exAbc` mentions neither "x" nor "y", and its class contains neither -/
theorem exAbc_xy : Interchangeable exAbc 'x' 'y' := by
  have key : ∀ n e a, exAbc.get n = some e → HasAtom e a → a = .literal c!"a" ∨ a = .literal c!"b" ∨ a = .mtch [] [('a', 'c')] := by
    intro n e a he ha
    simp only [exAbc, SetOfRules.get, List.lookup_cons, List.lookup_nil] at he
    cases hn : n == c!"main"
    · rw [hn] at he; cases he
    · rw [hn] at he
      cases he
      cases ha with
      | and hm ha =>
        simp only [List.mem_cons, List.not_mem_nil, or_false] at hm
        rcases hm with rfl | rfl
        · cases ha with
          | rep ha =>
            cases ha with
            | and hm ha =>
              simp only [List.mem_cons, List.not_mem_nil, or_false] at hm
              rcases hm with rfl | rfl <;> cases ha <;> simp
        · cases ha; simp
  refine ⟨by decide, by decide, by decide, fun n e l _ he ha hc => ?_, fun n e cs rs _ he ha => ?_, fun n e _ he ha => ?_⟩
  · rcases key n e _ he ha with h | h | h
    · cases h; simp at hc
    · cases h; simp at hc
    · cases h
  · rcases key n e _ he ha with h | h | h
    · cases h
    · cases h
    · cases h
      simp only [InClass, List.not_mem_nil, false_or, List.mem_singleton, exists_eq_left]
      decide
  · rcases key n e _ he ha with h | h | h <;> cases h

example : answerShape (parse c!"abxy" exAbc) = answerShape (parse c!"abyy" exAbc) :=
  (C74_interchangeable (.cons ((interchangeable_equiv _).refl _) (.cons ((interchangeable_equiv _).refl _)
    (.cons ((interchangeable_equiv _).symm exAbc_xy) (.cons ((interchangeable_equiv _).refl _) .nil))))).1

/-- `main = . . 'a'` -/
def exDots : SetOfRules := ⟨[(c!"main", .and [.simple .dot, .simple .dot, .simple (.literal c!"a")])]⟩

/-- **C74**: the conditions on ends of lines and on the number of bytes are needed. No atom of these rules tells "x" from the end of a line or from "é",
but the positions of errors and the acceptance differ. -/
theorem C74_conditions_needed :
    (∃ e e', parse c!"x." exDots = .err e ∧ parse c!"\n." exDots = .err e' ∧ e.pos ≠ e'.pos ∧ e.pos.n = e'.pos.n) ∧
    (∃ t, parse c!"xxa" exDots = .ok t) ∧ ∀ t, parse c!"xéa" exDots ≠ .ok t := by
  refine ⟨⟨⟨⟨2, 0, 2, 0⟩, .literal c!"a", c!"x.", [], [], .normal⟩, ⟨⟨2, 1, 1, 1⟩, .literal c!"a", c!".", [], [], .normal⟩,
      parse_of_fuel (f := 20) (by decide +kernel) (by simp), parse_of_fuel (f := 20) (by decide +kernel) (by simp), by decide, rfl⟩,
    ⟨.rule c!"main" [.val c!"x", .val c!"x", .val c!"a"], parse_of_fuel (f := 20) (by decide +kernel) (by simp)⟩, ?_⟩
  intro t h
  have := C17_ok_only_on_ascii h 'é' (by simp)
  revert this
  decide

end DP
