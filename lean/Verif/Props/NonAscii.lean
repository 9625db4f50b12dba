import Verif.Proofs.NonAscii
import Verif.Props.CalcCost
import Verif.Props.Syntax

/-!
# C83: a character that is not ASCII, where the text goes on

Any atom of ASCII characters that is tried at a character that is not ASCII panics: it fails after `get_char` has added one to
the byte position, and the line of the error would end inside the character. So, with rules of such atoms, what an ASCII text `u`
followed by such a character gives does not depend on the character nor on what comes after it.
-/

namespace DP
open Spec Spec.Readme NonAscii

/-- An atom that only matches ASCII characters: not `.`, and no literal or class with others. -/
def AsciiAtom : Atom → Prop
  | .literal l => Ascii l
  | .mtch cs rs => Ascii cs ∧ ∀ r ∈ rs, r.2.toNat < 128
  | .dot => False
  | _ => True

/-- Every atom of the rules only matches ASCII characters. -/
def AsciiRules (R : SetOfRules) : Prop := ∀ n e a, R.get n = some e → Sub (.simple a) e → AsciiAtom a

/-- Neither accepts, in the same way: both panic, both never return, or both are errors that differ at most in `line_after`. -/
def SameButLineAfter {α : Type} (a b : Out Error α) : Prop :=
  (a = .panic ∧ b = .panic) ∨ (a = .diverge ∧ b = .diverge) ∨
  ∃ d e, a = .err d ∧ b = .err e ∧ d.pos = e.pos ∧ d.descr = e.descr ∧ d.lineBefore = e.lineBefore ∧
    d.parsingRules = e.parsingRules ∧ d.priority = e.priority

namespace NonAscii

/-! ### From the runs to `parse` -/

theorem beside_init (u x : Str) (c : Char) (v : Str) (b : Bool) :
    Beside u x c v u (.initDebug (u ++ x) b) (.initDebug (u ++ c :: v) b) :=
  ⟨⟨[], rfl, coords_nil⟩, rfl, rfl, rfl, rfl, rfl, rfl, rfl, .inl ⟨rfl, rfl⟩⟩

section
variable {R : SetOfRules} {F : Str} {S : List (Str × Bool)} {k : Nat} {u x v : Str} {c : Char}

theorem run_in_step (hR : safeRules R F S k = true) (hu : Ascii u) (hc : ¬ c.toNat < 128) (hF : ∀ a ∈ u, a ∉ F) (b : Bool) :
    InStep (fun t1 t2 => ∃ w, Beside u x c v w t1 t2) (runRule R (.initDebug (u ++ x) b) c!"main")
      (runRule R (.initDebug (u ++ c :: v) b) c!"main") := by
  unfold safeRules at hR
  rw [Bool.and_eq_true, List.all_eq_true] at hR
  have hS : ∀ n b e, S.contains (n, b) = true → R.get n = some e → safe R F S k b e = true := by
    intro n b e h1 h2
    have := hR.2 (n, b) (by simpa using h1)
    simpa only [h2] using this
  have hm : S.contains (c!"main", false) = true ∨ R.get c!"main" = none := by
    have := hR.1
    rw [Bool.or_eq_true, Option.isNone_iff_eq_none] at this
    exact this
  have hA := fun f =>
    And.left (runs (x := x) (v := v) hu hc hF hS f) (beside_init u x c v b) (fun h => absurd h Bool.false_ne_true) hm
  have h1 := limit_elim (fun f => parseRuleName R f (.initDebug (u ++ x) b) c!"main")
  have h2 := limit_elim (fun f => parseRuleName R f (.initDebug (u ++ c :: v) b) c!"main")
  change (runRule R _ _ = _ ∧ _) ∨ ∃ n, _ = runRule R _ _ ∧ _ at h1
  change (runRule R _ _ = _ ∧ _) ∨ ∃ n, _ = runRule R _ _ ∧ _ at h2
  rcases h1 with ⟨h1, h1'⟩ | ⟨f, h1, h1'⟩
  · rcases h2 with ⟨h2, _⟩ | ⟨g, h2, h2'⟩
    · exact .inr (.inr (.inr ⟨h1, h2⟩))
    · have := hA g
      rw [h2, h1' g] at this
      rcases this with h | ⟨_, _, _, h, _⟩ | ⟨_, _, h, _⟩ | ⟨_, h⟩
      · exact .inl h
      · cases h
      · cases h
      · exact absurd h h2'
  · rcases h2 with ⟨h2, h2'⟩ | ⟨g, h2, h2'⟩
    · have := hA f
      rw [h1, h2' f] at this
      rcases this with h | ⟨_, _, _, _, h, _⟩ | ⟨_, _, _, h, _⟩ | ⟨h, _⟩
      · cases h
      · cases h
      · cases h
      · exact absurd h h1'
    · have := hA (max f g)
      rw [parseRuleName_mono (Nat.le_max_left f g) h1 h1', parseRuleName_mono (Nat.le_max_right f g) h2 h2'] at this
      rcases this with h | ⟨a, b, n, h3, h4, w, h5, _⟩ | h | h
      · exact .inl h
      · exact .inr (.inl ⟨a, b, n, h3, h4, w, h5⟩)
      · exact .inr (.inr (.inl h))
      · exact .inr (.inr (.inr h))

/-- what is made of the final status -/
def close (s : Str) (o : Out Error (Status × Node)) : Out Error Node :=
  match o with
  | .ok (st, ast) =>
    if st.pos.n = byteLen s then .ok ast
    else match st.potentialError with
      | some e => .err e
      | none => raise st .notConsumed .normal
  | .err e => .err e
  | .panic => .panic
  | .diverge => .diverge

theorem beside_pos {w s1 s2} (h : Beside u x c v w s1 s2) : s1.pos.n ≤ u.length := by
  obtain ⟨pre, h1, h2⟩ := h.at_
  rw [h2.n, h1, List.length_append]
  omega

/-- the second text is not accepted; where it does not panic, the first is refused in the same way if there is something left -/
theorem close_in_step (hu : Ascii u) (hx : x ≠ []) {o1 o2}
    (h : InStep (fun t1 t2 => ∃ w, Beside u x c v w t1 t2) o1 o2) :
    close (u ++ c :: v) o2 = .panic ∨ (close (u ++ x) o1 = .diverge ∧ close (u ++ c :: v) o2 = .diverge) ∨
    ∃ a b, close (u ++ x) o1 = .err a ∧ close (u ++ c :: v) o2 = .err b ∧ ErrRel a b := by
  rcases h with h | ⟨s1, s2, n, rfl, rfl, w, h⟩ | ⟨a, b, rfl, rfl, h⟩ | ⟨rfl, rfl⟩
  · subst h; exact .inl rfl
  · have hp := beside_pos h
    have h1 : s1.pos.n ≠ byteLen (u ++ x) := by
      have h2 := length_le_byteLen (u ++ x)
      rw [List.length_append] at h2
      have := List.length_pos_iff.2 hx
      omega
    have h2 : s2.pos.n ≠ byteLen (u ++ c :: v) := by
      have h2 := length_le_byteLen (u ++ c :: v)
      rw [List.length_append, List.length_cons] at h2
      rw [h.pos]
      omega
    right; right
    simp only [close, if_neg h1, if_neg h2]
    rcases h.pot with ⟨h3, h4⟩ | ⟨a, b, h3, h4, h5⟩
    · rw [h3, h4]
      obtain ⟨a, b, e1, e2, e3⟩ := beside_raise hu h .notConsumed .normal
      refine ⟨a, b, ?_, ?_, e3⟩
      · simp only [raise, e1]
      · simp only [raise, e2]
    · rw [h3, h4]; exact ⟨a, b, rfl, rfl, h5⟩
  · exact .inr (.inr ⟨a, b, rfl, rfl, h⟩)
  · exact .inr (.inl ⟨rfl, rfl⟩)

theorem parse_close (s : Str) (R : SetOfRules) : parse s R = close s (runRule R (.initDebug s false) c!"main") := parse_eq s R

theorem parseDebug_close (s : Str) (R : SetOfRules) : parseDebug s R = close s (runRule R (.initDebug s true) c!"main") :=
  parseDebug_eq s R

theorem same_of {p : Str → Out Error Node} {b : Bool} (hp : ∀ s, p s = close s (runRule R (.initDebug s b) c!"main"))
    (hR : safeRules R F S k = true) (hu : Ascii u) (hF : ∀ a ∈ u, a ∉ F) {c' : Char} {v' : Str} (hc : ¬ c.toNat < 128)
    (hc' : ¬ c'.toNat < 128) : SameButLineAfter (p (u ++ c :: v)) (p (u ++ c' :: v')) := by
  have h1 := close_in_step hu (List.cons_ne_nil c v) (run_in_step (v := v') hR hu hc' hF b)
  have h2 := close_in_step hu (List.cons_ne_nil c' v') (run_in_step (v := v) hR hu hc hF b)
  rw [← hp, ← hp] at h1 h2
  rcases h1 with h1 | ⟨h1, h1'⟩ | ⟨d, e, h1, h3, h4⟩
  · rcases h2 with h2 | ⟨h2, _⟩ | ⟨_, _, h2, _⟩
    · exact .inl ⟨h2, h1⟩
    · rw [h1] at h2; cases h2
    · rw [h1] at h2; cases h2
  · exact .inr (.inl ⟨h1, h1'⟩)
  · exact .inr (.inr ⟨d, e, h1, h3, h4⟩)

theorem prefix_of {p : Str → Out Error Node} {b : Bool} (hp : ∀ s, p s = close s (runRule R (.initDebug s b) c!"main"))
    (hR : safeRules R F S k = true) (hu : Ascii u) (hF : ∀ a ∈ u, a ∉ F) (hx : x ≠ []) (hc : ¬ c.toNat < 128) {t : Node}
    (h : p (u ++ x) = .ok t) : p (u ++ c :: v) = .panic := by
  have h1 := close_in_step hu hx (run_in_step (v := v) hR hu hc hF b)
  rw [← hp, ← hp, h] at h1
  rcases h1 with h1 | ⟨h1, _⟩ | ⟨_, _, h1, _⟩
  · exact h1
  · cases h1
  · cases h1

end

/-! ### Rules without `.` pass the check -/

theorem allParts_of {s : Bool → Expr → Bool} {nv ed} : ∀ {es b}, (∀ e ∈ es, ∀ b, s b e = true) → allParts s nv ed b es = true := by
  intro es
  induction es with
  | nil => intro b _; rfl
  | cons e es ih =>
    intro b h
    rw [allParts, h e (List.mem_cons_self ..), ih fun e' he => h e' (List.mem_cons_of_mem _ he)]
    simp

theorem allAlts_of {s : Bool → Expr → Bool} {l} : ∀ {es b}, (∀ e ∈ es, ∀ b, s b e = true) → allAlts s l b es = true := by
  intro es
  induction es with
  | nil => intro b _; rfl
  | cons e es ih =>
    intro b h
    rw [allAlts, h e (List.mem_cons_self ..), ih fun e' he => h e' (List.mem_cons_of_mem _ he)]
    simp

theorem isAscii_all {l : Str} (h : Ascii l) : l.all isAscii = true :=
  List.all_eq_true.2 fun c hc => decide_eq_true (h c hc)

def namesOf (R : SetOfRules) : List (Str × Bool) := R.entries.map fun x => (x.1, false)

theorem safe_plain (R : SetOfRules) (F : Str) : ∀ (k : Nat) (e : Expr), sizeOf e ≤ k → (∀ a, Sub (.simple a) e → AsciiAtom a) →
    ∀ b, safe R F (namesOf R) k b e = true := by
  intro k
  induction k with
  | zero => intro e hk; cases e <;> simp at hk
  | succ k ih =>
    intro e hk h b
    cases e with
    | simple a =>
      have := h a (.refl _)
      cases a with
      | literal l => rw [safe]; exact isAscii_all this
      | mtch cs rs =>
        rw [safe, asciiClass, isAscii_all this.1, Bool.true_and, List.all_eq_true]
        exact fun r hr => decide_eq_true (this.2 r hr)
      | dot => exact absurd this id
      | eof => rw [safe]
      | error d => rw [safe]
    | and es =>
      rw [safe]
      refine allParts_of fun e he b => ih e ?_ (fun a ha => h a (.and he ha)) b
      have := List.sizeOf_lt_of_mem he
      simp only [Expr.and.sizeOf_spec] at hk
      omega
    | or es =>
      rw [safe]
      refine allAlts_of fun e he b => ih e ?_ (fun a ha => h a (.or he ha)) b
      have := List.sizeOf_lt_of_mem he
      simp only [Expr.or.sizeOf_spec] at hk
      omega
    | not e =>
      rw [safe]
      simp only [Expr.not.sizeOf_spec] at hk
      exact ih e (by omega) (fun a ha => h a (.not ha)) b
    | rep e mn mx =>
      rw [safe]
      simp only [Expr.rep.sizeOf_spec] at hk
      rw [ih e (by omega) (fun a ha => h a (.rep ha)) false, Bool.true_or]
    | ruleName n =>
      rw [safe]
      cases hg : R.get n with
      | none => simp
      | some e =>
        have : (namesOf R).contains (n, false) = true := by
          rw [List.contains_iff_mem]
          exact List.mem_map.2 ⟨(n, e), mem_of_lookup hg, rfl⟩
        rw [this]; rfl

theorem safe_of_ascii {R : SetOfRules} (h : AsciiRules R) : ∃ k, safeRules R [] (namesOf R) k = true := by
  obtain ⟨k, hk⟩ : ∃ k, ∀ x ∈ R.entries, sizeOf x.2 ≤ k := by
    refine ⟨sizeOf R.entries, fun x hx => ?_⟩
    have h1 := List.sizeOf_lt_of_mem hx
    have h2 : sizeOf x = 1 + sizeOf x.1 + sizeOf x.2 := by cases x; rfl
    omega
  refine ⟨k, ?_⟩
  unfold safeRules
  rw [Bool.and_eq_true, List.all_eq_true, Bool.or_eq_true]
  constructor
  · cases hg : R.get c!"main" with
    | none => exact .inr rfl
    | some e =>
      left
      rw [List.contains_iff_mem]
      exact List.mem_map.2 ⟨(_, e), mem_of_lookup hg, rfl⟩
  · intro y _
    cases hg : R.get y.1 with
    | none => rfl
    | some e => exact safe_plain R [] k e (hk _ (mem_of_lookup hg)) (fun a ha => h _ e a hg ha) _

end NonAscii

/-! ### Rules of ASCII atoms -/

/-- **C83**: where an accepted text goes on with something else than a character that is not ASCII, that character makes `parse`
panic, whatever follows. -/
theorem C83_prefix {R : SetOfRules} (hR : AsciiRules R) {u x : Str} {t : Node} (h : parse (u ++ x) R = .ok t) (hx : x ≠ [])
    {c : Char} (hc : ¬ c.toNat < 128) (v : Str) : parse (u ++ c :: v) R = .panic := by
  obtain ⟨k, hk⟩ := safe_of_ascii hR
  have hu : Ascii u := fun a ha => C17_ok_only_on_ascii h a (List.mem_append_left _ ha)
  exact prefix_of (fun s => parse_close s R) hk hu (by simp) hx hc h

/-- **C83**: what an ASCII text gives, followed by a character that is not ASCII, does not depend on this character nor on what
follows it: only `line_after` of an error shows them. -/
theorem C83_same {R : SetOfRules} (hR : AsciiRules R) {u : Str} (hu : Ascii u) {c c' : Char} (hc : ¬ c.toNat < 128)
    (hc' : ¬ c'.toNat < 128) (v v' : Str) : SameButLineAfter (parse (u ++ c :: v) R) (parse (u ++ c' :: v') R) ∧
      SameButLineAfter (parseDebug (u ++ c :: v) R) (parseDebug (u ++ c' :: v') R) := by
  obtain ⟨k, hk⟩ := safe_of_ascii hR
  exact ⟨same_of (fun s => parse_close s R) hk hu (by simp) hc hc', same_of (fun s => parseDebug_close s R) hk hu (by simp) hc hc'⟩

/-- **C83**: compared with any other way to go on after `u`: a panic, or the same error, or neither returns. -/
theorem C83_other {R : SetOfRules} (hR : AsciiRules R) {u x : Str} (hu : Ascii u) (hx : x ≠ []) {c : Char} (hc : ¬ c.toNat < 128)
    (v : Str) : parse (u ++ c :: v) R = .panic ∨ SameButLineAfter (parse (u ++ x) R) (parse (u ++ c :: v) R) := by
  obtain ⟨k, hk⟩ := safe_of_ascii hR
  have h1 := close_in_step hu hx (run_in_step (x := x) (v := v) hk hu hc (by simp) false)
  rw [← parse_close, ← parse_close] at h1
  rcases h1 with h1 | h1 | h1
  · exact .inl h1
  · exact .inr (.inr (.inl h1))
  · exact .inr (.inr (.inr h1))

/-- `main = 'a'* 'b'` -/
def aabRules : SetOfRules := ⟨[(c!"main", .and [.rep (.simple (.literal c!"a")) 0 none, .simple (.literal c!"b")])]⟩

theorem aabRules_ok : AsciiRules aabRules := by
  intro n e a h hs
  have := mem_of_lookup h
  simp only [aabRules, List.mem_cons, List.not_mem_nil, or_false, Prod.mk.injEq] at this
  obtain ⟨rfl, rfl⟩ := this
  cases hs with
  | and he hs =>
    simp only [List.mem_cons, List.not_mem_nil, or_false] at he
    rcases he with rfl | rfl
    · cases hs with
      | rep hs => cases hs; exact fun c hc => by simp at hc; subst hc; decide
    · cases hs; exact fun c hc => by simp at hc; subst hc; decide

/-- `aab` is accepted, so `aaé` and `éab` panic -/
example : ∀ v, parse (c!"aa" ++ 'é' :: v) aabRules = .panic ∧ parse ('é' :: v) aabRules = .panic := fun v => by
  have h : parse c!"aab" aabRules = .ok (.rule c!"main" [.val c!"a", .val c!"a", .val c!"b"]) :=
    parse_of_fuel (f := 20) (by decide +kernel) (by simp)
  exact ⟨C83_prefix aabRules_ok (u := c!"aa") (x := c!"b") h (by simp) (by decide) v,
    C83_prefix aabRules_ok (u := []) (x := c!"aab") h (by simp) (by decide) v⟩

/-- `aac` is refused at the `c`, so whatever comes later is not looked at -/
example : parse c!"aacé" aabRules ≠ .panic ∧ SameButLineAfter (parse c!"aacé" aabRules) (parse c!"aac→xy" aabRules) := by
  refine ⟨?_, (C83_same aabRules_ok (u := c!"aac") (by decide) (by decide) (by decide) [] c!"xy").1⟩
  have hb : (match parseWithDebugF 20 c!"aacé" aabRules false with | .err _ => true | _ => false) = true := by decide +kernel
  cases ht : parseWithDebugF 20 c!"aacé" aabRules false with
  | err e => rw [parse_of_fuel ht (by simp)]; simp
  | _ => rw [ht] at hb; cases hb

/-- `bé` against `bb`: the parser has matched when it has not looked yet at what follows, and both are refused alike -/
example : parse c!"bé" aabRules = .panic ∨ SameButLineAfter (parse c!"bb" aabRules) (parse c!"bé" aabRules) :=
  C83_other aabRules_ok (u := c!"b") (x := c!"b") (by decide) (by simp) (by decide) []

/-- The condition on `.` is needed: `main = . 'b'` passes over the character, and then it matters how many bytes it has. -/
example : let R : SetOfRules := ⟨[(c!"main", .and [.simple .dot, .simple (.literal c!"b")])]⟩
    (∃ t, parse c!"ab" R = .ok t) ∧ (∃ e, parse c!"éb" R = .err e) ∧ parse c!"→b" R = .panic := by
  refine ⟨⟨.rule c!"main" [.val c!"a", .val c!"b"], parse_of_fuel (f := 20) (by decide +kernel) (by simp)⟩,
    ⟨⟨⟨2, 0, 2, 0⟩, .notConsumed, c!"é", [], [], .normal⟩, parse_of_fuel (f := 20) (by decide +kernel) (by simp)⟩,
    parse_of_fuel (f := 20) (by decide +kernel) (by simp)⟩

/-! ### The calculator -/

theorem calculator_safe : safeRules calculatorRules [] (namesOf calculatorRules) 20 = true := by decide +kernel

/-- **C83**: in an expression of the calculator of README.md a character that is not ASCII in place of any other, or at the end,
makes `parse` panic. -/
theorem C83_calculator : ∃ R, rulesFromPeg Readme.calculator = .ok R ∧ ∀ u x t, parse (u ++ x) R = .ok t →
    ∀ c v, ¬ c.toNat < 128 → parse (u ++ c :: v) R = .panic := by
  refine ⟨_, calculator_rules, fun u x t h c v hc => ?_⟩
  have hu : Ascii u := fun a ha => C17_ok_only_on_ascii h a (List.mem_append_left _ ha)
  by_cases hx : x = []
  · subst hx
    rw [List.append_nil, parse_iff, calc_main] at h
    obtain ⟨_, m, w, y, n, rfl, h, _⟩ := h
    refine prefix_of (x := c!" ") (t := .rule c!"main" [blank m, y, blank (n + 1)]) (fun s => parse_close s _) calculator_safe hu
      (by simp) (by simp) hc ?_
    have he : spaces m ++ w ++ spaces n ++ c!" " = spaces m ++ w ++ spaces (n + 1) := by
      rw [List.append_assoc _ (spaces n)]
      unfold spaces
      rw [List.replicate_succ']
    rw [he, parse_iff, calc_main]
    exact ⟨ascii_two (ascii_two (spaces_ascii m) (addition_ascii h)) (spaces_ascii _), m, w, y, n + 1, rfl, h, rfl⟩
  · exact prefix_of (fun s => parse_close s _) calculator_safe hu (by simp) hx hc h

/-- `1 + 2*3` is an expression, so `1 + é` and `1 + 2*3é` panic -/
example : ∃ R, rulesFromPeg Readme.calculator = .ok R ∧ ∀ v, parse (c!"1 + " ++ 'é' :: v) R = .panic ∧
    parse (c!"1 + 2*3" ++ 'é' :: v) R = .panic := by
  obtain ⟨R, h1, h2⟩ := C83_calculator
  obtain ⟨R', h1', h3⟩ := C60_calculator
  have : R' = R := by rw [h1] at h1'; injection h1' with h; exact h.symm
  subst this
  have h4 := Product.mk (one_digit (c := '1') (by decide)) .nil
  have h5 := Product.mk (one_digit (c := '2') (by decide))
    (.cons (m := 0) (n := 0) (c := '*') (.inl rfl) (one_digit (c := '3') (by decide)) .nil)
  have h6 := (h3 _ _).2 ⟨0, _, _, 0, rfl, Addition.mk h4 (.cons (m := 1) (n := 1) (c := '+') (.inl rfl) h5 .nil), rfl⟩
  exact ⟨_, h1, fun v => ⟨h2 c!"1 + " c!"2*3" _ h6 'é' v (by decide), h2 c!"1 + 2*3" [] _ h6 'é' v (by decide)⟩⟩

/-! ### `rules_from_peg` -/

def pegNames : List Str := PegRules.parsePeg.entries.map (·.1)

theorem peg_safe_bracket : safeRules PegRules.parsePeg c!"["
    ((pegNames.filter fun n => n != c!"mbetween" && n != c!"mchars").map fun n => (n, false)) 20 = true := by decide +kernel

theorem peg_safe_dash : safeRules PegRules.parsePeg c!"-"
    ((c!"mbetween", true) :: (pegNames.filter fun n => n != c!"mbetween").map fun n => (n, false)) 20 = true := by decide +kernel

theorem peg_safe {u : Str} (h : '[' ∉ u ∨ '-' ∉ u) : ∃ F S k, safeRules PegRules.parsePeg F S k = true ∧ ∀ a ∈ u, a ∉ F := by
  rcases h with h | h
  · exact ⟨_, _, _, peg_safe_bracket, fun a ha hm => h (by simp only [List.mem_cons, List.not_mem_nil, or_false] at hm; exact hm ▸ ha)⟩
  · exact ⟨_, _, _, peg_safe_dash, fun a ha hm => h (by simp only [List.mem_cons, List.not_mem_nil, or_false] at hm; exact hm ▸ ha)⟩

/-- **C83**: where the text of a grammar that `rules_from_peg` accepts goes on with something else, a character that is not ASCII
makes `rules_from_peg` panic: in a literal, in a comment, in a name, between two rules. The exception is behind a `[` and a `-`. -/
theorem C83_rules_from_peg {u x : Str} {R : SetOfRules} (h : rulesFromPeg (u ++ x) = .ok R) (hx : x ≠ []) (hb : '[' ∉ u ∨ '-' ∉ u)
    {c : Char} (hc : ¬ c.toNat < 128) (v : Str) : rulesFromPeg (u ++ c :: v) = .panic := by
  obtain ⟨F, S, k, hk, hF⟩ := peg_safe hb
  have hu : Ascii u := fun a ha => C31_ok_only_on_ascii h a (List.mem_append_left _ ha)
  rw [rulesFromPeg_eq] at h
  cases hp : parse (u ++ x) PegRules.parsePeg with
  | ok t => rw [rulesFromPeg_eq, prefix_of (fun s => parse_close s _) hk hu hF hx hc hp]
  | err e => rw [hp] at h; cases h
  | panic => rw [hp] at h; cases h
  | diverge => rw [hp] at h; cases h

/-- **C83**: and more generally what `rules_from_peg` gives on an ASCII text followed by a character that is not ASCII does not
depend on this character nor on what follows it. -/
theorem C83_rules_from_peg_same {u : Str} (hu : Ascii u) (hb : '[' ∉ u ∨ '-' ∉ u) {c c' : Char} (hc : ¬ c.toNat < 128)
    (hc' : ¬ c'.toNat < 128) (v v' : Str) :
    (rulesFromPeg (u ++ c :: v) = .panic ∧ rulesFromPeg (u ++ c' :: v') = .panic) ∨
    ∃ d e, rulesFromPeg (u ++ c :: v) = .err (.parser d) ∧ rulesFromPeg (u ++ c' :: v') = .err (.parser e) ∧ d.pos = e.pos ∧
      d.descr = e.descr ∧ d.lineBefore = e.lineBefore ∧ d.parsingRules = e.parsingRules ∧ d.priority = e.priority := by
  obtain ⟨F, S, k, hk, hF⟩ := peg_safe hb
  have h := same_of (v := v) (v' := v') (fun s => parse_close s _) hk hu hF hc hc'
  have hr := C30_always_returns (u ++ c :: v)
  rw [rulesFromPeg_eq] at hr
  rw [rulesFromPeg_eq, rulesFromPeg_eq]
  rcases h with ⟨h1, h2⟩ | ⟨h1, h2⟩ | ⟨d, e, h1, h2, h3⟩
  · rw [h1, h2]; exact .inl ⟨rfl, rfl⟩
  · rw [h1] at hr; simp at hr
  · rw [h1, h2]; exact .inr ⟨d, e, rfl, rfl, h3⟩

/-- `main = 'a'` is accepted, so `main = 'é'` panics, and so does `maé` -/
example : ∀ v, rulesFromPeg (c!"main = 'é" ++ v) = .panic ∧ rulesFromPeg (c!"maé" ++ v) = .panic := fun v => by
  have h : rulesFromPeg c!"main = 'a'\n" = .ok ⟨[(c!"main", .simple (.literal c!"a"))]⟩ :=
    rules_of_doc (d := litDoc (.single c!"a")) (by decide +kernel) (by decide +kernel) (by decide +kernel) rfl
  exact ⟨C83_rules_from_peg (u := c!"main = '") (x := c!"a'\n") h (by simp) (.inl (by decide)) (by decide) v,
    C83_rules_from_peg (u := c!"ma") (x := c!"in = 'a'\n") h (by simp) (.inl (by decide)) (by decide) v⟩

/-- `main = )` is refused at the `)` already -/
example : ∃ d e, rulesFromPeg c!"main = )é" = .err (.parser d) ∧ rulesFromPeg c!"main = )→xy" = .err (.parser e) ∧ d.pos = e.pos := by
  have hb : (match parseWithDebugF 200 c!"main = )é" PegRules.parsePeg false with | .err _ => true | _ => false) = true := by
    decide +kernel
  cases ht : parseWithDebugF 200 c!"main = )é" PegRules.parsePeg false with
  | err e =>
    rcases C83_rules_from_peg_same (u := c!"main = )") (by decide) (.inl (by decide)) (c := 'é') (c' := '→') (by decide) (by decide) []
      c!"xy" with ⟨h, _⟩ | ⟨d, e, h1, h2, h3, _⟩
    · have h' : rulesFromPeg c!"main = )é" = .panic := h
      rw [rulesFromPeg_eq, parse_of_fuel ht (by simp)] at h'
      cases h'
    · exact ⟨d, e, h1, h2, h3⟩
  | _ => rw [ht] at hb; cases hb

/-- The exception: `main = [a-z]` is accepted, `main = [a-é]` is refused without a panic. -/
example : ∃ R e, rulesFromPeg c!"main = [a-z]\n" = .ok R ∧ rulesFromPeg c!"main = [a-é]\n" = .err e := by
  have hb : (match parseWithDebugF 200 c!"main = [a-é]\n" PegRules.parsePeg false with | .err _ => true | _ => false) = true := by
    decide +kernel
  cases ht : parseWithDebugF 200 c!"main = [a-é]\n" PegRules.parsePeg false with
  | err e =>
    refine ⟨_, .parser e, rulesFromPeg_of (l := [(c!"main", .simple (.mtch [] [('a', 'z')]))]) 200 (by decide +kernel), ?_⟩
    rw [rulesFromPeg_eq, parse_of_fuel ht (by simp)]
  | _ => rw [ht] at hb; cases hb

end DP
