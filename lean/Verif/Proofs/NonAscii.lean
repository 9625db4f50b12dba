/-
Two texts with the same ASCII beginning `u`, the second going on with a character `c` that is not ASCII: the parser does the
same on both until it looks at what comes after `u`. There it panics on the second.
-/
import Verif.Proofs.Report
import Verif.Proofs.Run

namespace DP.NonAscii
open Spec

/-! ### The rules: a check -/

def isAscii (c : Char) : Bool := decide (c.toNat < 128)

/-- a class of ASCII characters -/
def asciiClass (cs : Str) (rs : List (Char × Char)) : Bool := cs.all isAscii && rs.all fun r => isAscii r.2

/-- matching the expression begins with an atom that fails on characters that are not ASCII -/
def looks (R : SetOfRules) : Nat → Expr → Bool
  | 0, _ => false
  | _ + 1, .simple (.literal (a :: _)) => isAscii a
  | _ + 1, .simple (.mtch cs rs) => asciiClass cs rs
  | _ + 1, .simple .eof => true
  | k + 1, .and (e :: _) => looks R k e
  | k + 1, .or (e :: _) => looks R k e
  | k + 1, .not e => looks R k e
  | k + 1, .rep e _ _ => looks R k e
  | k + 1, .ruleName n => match R.get n with | some e => looks R k e | none => false
  | _ + 1, _ => false

/-- the expression does not match where the characters of `F` are missing -/
def never (R : SetOfRules) (F : Str) : Nat → Expr → Bool
  | 0, _ => false
  | _ + 1, .simple (.literal l) => l.any fun a => F.contains a
  | k + 1, .and es => es.any (never R F k)
  | k + 1, .ruleName n => match R.get n with | some e => never R F k e | none => false
  | _ + 1, _ => false

/-- where the expression has matched, starting at a character looked at if `here`, the next character is looked at -/
def ends (R : SetOfRules) : Nat → Bool → Expr → Bool
  | 0, _, _ => false
  | k + 1, here, .not e => here || looks R k e
  | k + 1, _, .rep e _ none => looks R k e
  | k + 1, here, .ruleName n => match R.get n with | some e => ends R k here e | none => false
  | _ + 1, _, _ => false

def allParts (safe : Bool → Expr → Bool) (never : Expr → Bool) (ends : Bool → Expr → Bool) : Bool → List Expr → Bool
  | _, [] => true
  | here, e :: es => safe here e && (never e || allParts safe never ends (ends here e) es)

def allAlts (safe : Bool → Expr → Bool) (looks : Expr → Bool) : Bool → List Expr → Bool
  | _, [] => true
  | here, e :: es => safe here e && allAlts safe looks (here || looks e) es

/-- every `.` is at a character looked at, literals and classes are ASCII, the rules called are among `S` -/
def safe (R : SetOfRules) (F : Str) (S : List (Str × Bool)) : Nat → Bool → Expr → Bool
  | 0, _, _ => false
  | _ + 1, here, .simple .dot => here
  | _ + 1, _, .simple (.literal l) => l.all isAscii
  | _ + 1, _, .simple (.mtch cs rs) => asciiClass cs rs
  | _ + 1, _, .simple .eof => true
  | _ + 1, _, .simple (.error _) => true
  | k + 1, here, .and es => allParts (safe R F S k) (never R F k) (ends R k) here es
  | k + 1, here, .or es => allAlts (safe R F S k) (looks R k) here es
  | k + 1, here, .not e => safe R F S k here e
  | k + 1, here, .rep e _ _ => safe R F S k false e || (safe R F S k here e && never R F k e)
  | _ + 1, here, .ruleName n => S.contains (n, false) || (here && S.contains (n, true)) || (R.get n).isNone

def safeRules (R : SetOfRules) (F : Str) (S : List (Str × Bool)) (k : Nat) : Bool :=
  (S.contains (c!"main", false) || (R.get c!"main").isNone) &&
  S.all fun x => match R.get x.1 with | some e => safe R F S k x.2 e | none => true

/-! ### Slices at the end of an ASCII text -/

theorem slice_prefix {pre post : Str} {p : Pos} (h : Ascii pre) (hc : CoordsOf pre p) :
    slice (pre ++ post) p.startLine p.n = some (lastLine pre) := by
  obtain ⟨p0, hp0, _⟩ := lastLine_split pre
  have hl := congrArg List.length hp0
  rw [List.length_append] at hl
  have hsl : p.startLine = p0.length := by rw [hc.startLine]; omega
  have hn : p.n = p0.length + (lastLine pre).length := by rw [hc.n]; exact hl
  have h0 : Ascii p0 := fun c hc => h c (by rw [hp0]; exact List.mem_append_left _ hc)
  have h1 : Ascii (lastLine pre) := fun c hc => h c (by rw [hp0]; exact List.mem_append_right _ hc)
  unfold slice
  rw [if_pos (by omega), Option.bind_eq_some_iff]
  refine ⟨lastLine pre ++ post, (dropBytes_iff _ _ _).2 ⟨p0, ?_, ?_⟩, (takeBytes_iff _ _ _).2 ⟨post, rfl, ?_⟩⟩
  · rw [← List.append_assoc, ← hp0]
  · rw [byteLen_ascii h0, hsl]
  · rw [byteLen_ascii h1]; omega

theorem slice_cut {pre post : Str} {c : Char} {p : Pos} (h : Ascii pre) (hc : ¬ c.toNat < 128) (hp : CoordsOf (pre ++ [c]) p) :
    slice (pre ++ c :: post) p.startLine p.n = none := by
  have hnl : c ≠ '\n' := by rintro rfl; exact hc (by decide)
  obtain ⟨p0, hp0, _⟩ := lastLine_split pre
  have hl := congrArg List.length hp0
  rw [List.length_append] at hl
  have hsl : p.startLine = p0.length := by
    rw [hp.startLine, lastLine_append, if_neg hnl]
    simp only [List.length_append, List.length_cons, List.length_nil]
    omega
  have hn : p.n = p0.length + (lastLine pre).length + 1 := by
    rw [hp.n, List.length_append, List.length_cons, List.length_nil]; omega
  have h0 : Ascii p0 := fun c hc => h c (by rw [hp0]; exact List.mem_append_left _ hc)
  have h1 : Ascii (lastLine pre) := fun c hc => h c (by rw [hp0]; exact List.mem_append_right _ hc)
  unfold slice
  rw [if_pos (by omega)]
  have h2 : dropBytes p.startLine (pre ++ c :: post) = some (lastLine pre ++ c :: post) :=
    (dropBytes_iff _ _ _).2 ⟨p0, by rw [← List.append_assoc, ← hp0], by rw [byteLen_ascii h0, hsl]⟩
  rw [h2, Option.bind_some]
  cases ht : takeBytes (p.n - p.startLine) (lastLine pre ++ c :: post) with
  | none => rfl
  | some b =>
    exfalso
    obtain ⟨r, h3, h4⟩ := (takeBytes_iff _ _ _).1 ht
    have h5 : p.n - p.startLine = (lastLine pre).length + 1 := by omega
    rw [h5] at h4
    have hsz : 1 < c.utf8Size := by
      by_contra hle
      have := Char.utf8Size_pos c
      have h1 : c.utf8Size = 1 := by omega
      exact hc (by have := Char.utf8Size_eq_one_iff.1 h1; exact Nat.lt_of_le_of_lt (show c.toNat ≤ 127 from this) (by decide))
    rcases List.append_eq_append_iff.1 h3 with ⟨q, h6, h7⟩ | ⟨q, h6, h7⟩
    · cases q with
      | nil =>
        simp only [List.append_nil] at h6
        rw [h6, byteLen_ascii h1] at h4
        omega
      | cons d q =>
        rw [List.cons_append, List.cons.injEq] at h7
        obtain ⟨rfl, h7⟩ := h7
        rw [h6, byteLen_append, byteLen_ascii h1] at h4
        simp only [byteLen] at h4
        omega
    · have : byteLen (lastLine pre) = byteLen b + byteLen q := by rw [h6, byteLen_append]
      rw [byteLen_ascii h1] at this
      omega

/-! ### Two runs -/

/-- the two errors differ at most in `line_after` -/
def ErrRel (a b : Error) : Prop :=
  a.pos = b.pos ∧ a.descr = b.descr ∧ a.lineBefore = b.lineBefore ∧ a.parsingRules = b.parsingRules ∧ a.priority = b.priority

/-- the same point of the texts `u ++ x` and `u ++ c :: v`, with `w` left of `u` -/
structure Beside (u x : Str) (c : Char) (v w : Str) (s1 s2 : Status) : Prop where
  at_ : ∃ pre, u = pre ++ w ∧ CoordsOf pre s1.pos
  pos : s2.pos = s1.pos
  it1 : s1.itParsing = w ++ x
  it2 : s2.itParsing = w ++ c :: v
  text1 : s1.text2parse = u ++ x
  text2 : s2.text2parse = u ++ c :: v
  trace : s2.traceRules = s1.traceRules
  walk : s2.walkingRules = s1.walkingRules
  pot : (s1.potentialError = none ∧ s2.potentialError = none) ∨
    ∃ a b, s1.potentialError = some a ∧ s2.potentialError = some b ∧ ErrRel a b

/-- the second run panics, or both do the same -/
def InStep {α : Type} (K : Status → Status → Prop) (o1 o2 : Out Error (Status × α)) : Prop :=
  o2 = .panic ∨ (∃ a b n, o1 = .ok (a, n) ∧ o2 = .ok (b, n) ∧ K a b) ∨ (∃ a b, o1 = .err a ∧ o2 = .err b ∧ ErrRel a b) ∨
    (o1 = .diverge ∧ o2 = .diverge)

section
variable {u x v w : Str} {c : Char} {s1 s2 : Status}

theorem beside_raise (hu : Ascii u) (h : Beside u x c v w s1 s2) (d : Descr) (p : Prio) :
    ∃ a b, fromStatus s1 d p = some a ∧ fromStatus s2 d p = some b ∧ ErrRel a b := by
  obtain ⟨pre, h1, h2⟩ := h.at_
  have ha : Ascii pre := fun c hc => hu c (by rw [h1]; exact List.mem_append_left _ hc)
  unfold fromStatus
  rw [h.text1, h.text2, h.pos, h1, List.append_assoc, List.append_assoc, slice_prefix ha h2, slice_prefix ha h2]
  exact ⟨_, _, rfl, rfl, rfl, rfl, rfl, h.walk.symm, rfl⟩

theorem beside_get {d : Char} (h : Beside u x c v (d :: w) s1 s2) :
    ∃ t1 t2, getChar s1 = .ok (t1, d) ∧ getChar s2 = .ok (t2, d) ∧ Beside u x c v w t1 t2 := by
  obtain ⟨pre, h1, h2⟩ := h.at_
  obtain ⟨t1, g1⟩ : ∃ t1, getChar s1 = .ok (t1, d) := by unfold getChar; rw [h.it1]; exact ⟨_, rfl⟩
  obtain ⟨t2, g2⟩ : ∃ t2, getChar s2 = .ok (t2, d) := by unfold getChar; rw [h.it2]; exact ⟨_, rfl⟩
  refine ⟨t1, t2, g1, g2, ?_⟩
  obtain ⟨a1, a2, a3, a4, a5, a6⟩ := getChar_ok g1
  obtain ⟨b1, b2, b3, b4, b5, b6⟩ := getChar_ok g2
  rw [h.it1, List.cons_append, List.cons.injEq] at a1
  rw [h.it2, List.cons_append, List.cons.injEq] at b1
  refine ⟨⟨pre ++ [d], by rw [h1]; simp, ?_⟩, ?_, a1.2.symm, b1.2.symm, a2.trans h.text1, b2.trans h.text2, ?_, ?_, ?_⟩
  · rw [a6]; exact coords_step h2
  · rw [a6, b6, h.pos]
  · rw [a4, b4, h.trace]
  · rw [a5, b5, h.walk]
  · rw [a3, b3]; exact h.pot

theorem beside_end (hu : Ascii u) (hc : ¬ c.toNat < 128) (h : Beside u x c v [] s1 s2) :
    ∃ t2, getChar s2 = .ok (t2, c) ∧ ∀ d p, fromStatus t2 d p = none := by
  obtain ⟨pre, h1, h2⟩ := h.at_
  rw [List.append_nil] at h1
  subst h1
  obtain ⟨t2, g2⟩ : ∃ t2, getChar s2 = .ok (t2, c) := by unfold getChar; rw [h.it2]; exact ⟨_, rfl⟩
  refine ⟨t2, g2, fun d p => ?_⟩
  obtain ⟨b1, b2, b3, b4, b5, b6⟩ := getChar_ok g2
  unfold fromStatus
  rw [Option.map_eq_none_iff, b2, h.text2]
  refine slice_cut hu hc ?_
  rw [b6, h.pos]
  exact coords_step h2

theorem raise_sim {α : Type} {K} (hu : Ascii u) (h : Beside u x c v w s1 s2) (d : Descr) (p : Prio) :
    InStep (α := α) K (raise s1 d p) (raise s2 d p) := by
  obtain ⟨a, b, h1, h2, h3⟩ := beside_raise hu h d p
  unfold raise
  rw [h1, h2]
  exact .inr (.inr (.inl ⟨a, b, rfl, rfl, h3⟩))

/-! ### Atoms -/

theorem ascii_ne {a : Char} (hc : ¬ c.toNat < 128) (ha : isAscii a = true) : a ≠ c := by
  rintro rfl; exact hc (by simpa [isAscii] using ha)

theorem class_misses {cs rs} (hc : ¬ c.toNat < 128) (h : asciiClass cs rs = true) : matchChar cs rs c = false := by
  unfold asciiClass at h
  rw [Bool.and_eq_true, List.all_eq_true, List.all_eq_true] at h
  rw [Bool.eq_false_iff]
  intro hm
  unfold matchChar at hm
  split at hm
  · rename_i hq
    rw [List.contains_iff_mem] at hq
    exact hc (by simpa [isAscii] using h.1 c hq)
  · simp only [List.any_eq_true, Bool.and_eq_true, decide_eq_true_eq] at hm
    obtain ⟨r, hr, _, h2⟩ := hm
    have := h.2 r hr
    simp only [isAscii, decide_eq_true_eq] at this
    exact hc (Nat.lt_of_le_of_lt (show c.toNat ≤ r.2.toNat from h2) this)

theorem lit_end {lit l a} (hu : Ascii u) (hc : ¬ c.toNat < 128) (h : Beside u x c v [] s1 s2) (ha : isAscii a = true) :
    parseLiteralLoop lit s2 (a :: l) = .panic := by
  obtain ⟨t2, g, hn⟩ := beside_end hu hc h
  rw [parseLiteralLoop, parseChar, g]
  simp only [ascii_ne hc ha, if_false]
  unfold raise
  rw [hn]

theorem lit_sim {lit} (hu : Ascii u) (hc : ¬ c.toNat < 128) : ∀ (l : Str) {w s1 s2}, Beside u x c v w s1 s2 → l.all isAscii = true →
    parseLiteralLoop lit s2 l = .panic ∨
    (∃ w' t1 t2, w = l ++ w' ∧ parseLiteralLoop lit s1 l = .ok t1 ∧ parseLiteralLoop lit s2 l = .ok t2 ∧ Beside u x c v w' t1 t2) ∨
    (∃ a b, parseLiteralLoop lit s1 l = .err a ∧ parseLiteralLoop lit s2 l = .err b ∧ ErrRel a b) := by
  intro l
  induction l with
  | nil => intro w s1 s2 h _; exact .inr (.inl ⟨w, s1, s2, rfl, rfl, rfl, h⟩)
  | cons a l ih =>
    intro w s1 s2 h hl
    rw [List.all_cons, Bool.and_eq_true] at hl
    cases w with
    | nil => exact .inl (lit_end hu hc h hl.1)
    | cons d w =>
      obtain ⟨t1, t2, g1, g2, h'⟩ := beside_get h
      rw [parseLiteralLoop, parseLiteralLoop, parseChar, parseChar, g1, g2]
      by_cases he : a = d
      · subst he
        simp only [if_true]
        rcases ih h' hl.2 with h1 | ⟨w', r1, r2, h1, h2⟩ | h1
        · exact .inl h1
        · exact .inr (.inl ⟨w', r1, r2, by rw [h1, List.cons_append], h2⟩)
        · exact .inr (.inr h1)
      · simp only [he, if_false]
        obtain ⟨e1, e2, r1, r2, r3⟩ := beside_raise hu h' (.literal lit) .normal
        unfold raise
        rw [r1, r2]
        exact .inr (.inr ⟨e1, e2, rfl, rfl, r3⟩)

theorem atom_end {R : SetOfRules} {k f e} (hu : Ascii u) (hc : ¬ c.toNat < 128) (h : Beside u x c v [] s1 s2) (a : Atom)
    (he : e = .simple a) (hl : looks R k e = true) : parseExpr R (f + 1) s2 e = .panic := by
  subst he
  obtain ⟨t2, g, hn⟩ := beside_end hu hc h
  cases k with
  | zero => simp [looks] at hl
  | succ k =>
    rw [parseExpr]
    cases a with
    | literal l =>
      cases l with
      | nil => simp [looks] at hl
      | cons a l =>
        simp only [looks] at hl
        simp only [parseAtomAsExpr, parseAtom, parseLiteral, lit_end hu hc h hl]
    | mtch cs rs =>
      simp only [looks] at hl
      simp only [parseAtomAsExpr, parseAtom, parseMatch, g, class_misses hc hl, raise, hn]
      simp
    | error d => simp [looks] at hl
    | dot => simp [looks] at hl
    | eof => simp only [parseAtomAsExpr, parseAtom, parseEof, g, raise, hn]

/-- an expression that looks at the character that is not ASCII -/
theorem looks_end {R : SetOfRules} (hu : Ascii u) (hc : ¬ c.toNat < 128) : ∀ f {s1 s2 k e}, Beside u x c v [] s1 s2 → looks R k e = true →
    parseExpr R f s2 e = .panic ∨ parseExpr R f s2 e = .diverge := by
  intro f
  induction f using Nat.strong_induction_on with
  | _ f ih =>
    intro s1 s2 k e h hl
    cases f with
    | zero => right; rw [parseExpr]
    | succ f =>
      cases k with
      | zero => simp [looks] at hl
      | succ k =>
        cases e with
        | simple a => exact .inl (atom_end hu hc h a rfl hl)
        | and es =>
          cases es with
          | nil => simp [looks] at hl
          | cons e es =>
            simp only [looks] at hl
            rw [parseExpr]
            cases f with
            | zero => right; rw [parseAnd]
            | succ f =>
              rw [parseAnd]
              rcases ih f (by omega) h hl with h1 | h1 <;> rw [h1]
              · exact .inl rfl
              · exact .inr rfl
        | or es =>
          cases es with
          | nil => simp [looks] at hl
          | cons e es =>
            simp only [looks] at hl
            rw [parseExpr]
            cases f with
            | zero => right; rw [parseOr]
            | succ f =>
              rw [parseOr]
              rcases ih f (by omega) h hl with h1 | h1 <;> rw [h1]
              · exact .inl rfl
              · exact .inr rfl
        | not e =>
          simp only [looks] at hl
          rw [parseExpr]
          rcases ih f (by omega) h hl with h1 | h1 <;> rw [h1]
          · exact .inl rfl
          · exact .inr rfl
        | rep e mn mx =>
          simp only [looks] at hl
          rw [parseExpr]
          cases f with
          | zero => right; rw [parseRepeat]
          | succ f =>
            rw [parseRepeat]
            rcases ih f (by omega) h hl with h1 | h1 <;> rw [h1]
            · exact .inl rfl
            · exact .inr rfl
        | ruleName n =>
          simp only [looks] at hl
          rw [parseExpr]
          cases f with
          | zero => right; rw [parseRuleName]
          | succ f =>
            rw [parseRuleName]
            cases hg : R.get n with
            | none => rw [hg] at hl; simp at hl
            | some e =>
              rw [hg] at hl
              simp only
              have hb : Beside u x c v [] (if s2.traceRules = true then s1.pushRule (c!"r:" ++ n) else s1)
                  (if s2.traceRules = true then s2.pushRule (c!"r:" ++ n) else s2) := by
                split
                · exact ⟨h.at_, h.pos, h.it1, h.it2, h.text1, h.text2, h.trace, by simp only [Status.pushRule, h.walk], h.pot⟩
                · exact h
              rcases ih f (by omega) hb hl with h1 | h1 <;> rw [h1]
              · exact .inl rfl
              · exact .inr rfl

/-! ### The runs -/

theorem atom_step {R : SetOfRules} {F S k here} (hu : Ascii u) (hc : ¬ c.toNat < 128) (hF : ∀ a ∈ u, a ∉ F) (a : Atom)
    (h : Beside u x c v w s1 s2) (hh : here = true → w ≠ []) (hs : safe R F S k here (.simple a) = true) :
    InStep (fun t1 t2 => ∃ w', Beside u x c v w' t1 t2 ∧ ∀ k', never R F k' (.simple a) = false)
      (parseAtomAsExpr s1 a) (parseAtomAsExpr s2 a) := by
  have hnl : (∀ l, a ≠ .literal l) → ∀ k', never R F k' (.simple a) = false := by
    intro hn k'
    cases k' with
    | zero => rfl
    | succ k' => cases a <;> first | rfl | exact absurd rfl (hn _)
  cases k with
  | zero => simp [safe] at hs
  | succ k =>
  cases a with
  | literal l =>
    simp only [safe] at hs
    rcases lit_sim (lit := l) hu hc l h hs with h1 | ⟨w', t1, t2, h0, h1, h2, h3⟩ | ⟨e1, e2, h1, h2, h3⟩
    · left; simp only [parseAtomAsExpr, parseAtom, parseLiteral, h1]
    · right; left
      refine ⟨t1, t2, [.val l], ?_, ?_, w', h3, fun k' => ?_⟩
      · simp only [parseAtomAsExpr, parseAtom, parseLiteral, h1]
      · simp only [parseAtomAsExpr, parseAtom, parseLiteral, h2]
      · cases k' with
        | zero => rfl
        | succ k' =>
          simp only [never, List.any_eq_false, Bool.not_eq_true]
          intro d hd
          obtain ⟨pre, hp, _⟩ := h.at_
          have := hF d (by rw [hp, h0]; simp [hd])
          simpa using this
    · right; right; left
      refine ⟨e1, e2, ?_, ?_, h3⟩
      · simp only [parseAtomAsExpr, parseAtom, parseLiteral, h1]
      · simp only [parseAtomAsExpr, parseAtom, parseLiteral, h2]
  | mtch cs rs =>
    simp only [safe] at hs
    cases w with
    | nil =>
      obtain ⟨t2, g, hn⟩ := beside_end hu hc h
      left
      simp only [parseAtomAsExpr, parseAtom, parseMatch, g, class_misses hc hs, raise, hn]
      simp
    | cons d w =>
      obtain ⟨t1, t2, g1, g2, h'⟩ := beside_get h
      simp only [parseAtomAsExpr, parseAtom, parseMatch, g1, g2]
      cases hm : matchChar cs rs d with
      | true => exact .inr (.inl ⟨t1, t2, _, rfl, rfl, w, h', hnl (by simp)⟩)
      | false =>
        simp only [Bool.false_eq_true, if_false]
        obtain ⟨e1, e2, r1, r2, r3⟩ := beside_raise hu h' (.mtch cs rs) .normal
        simp only [raise, r1, r2]
        exact .inr (.inr (.inl ⟨e1, e2, rfl, rfl, r3⟩))
  | error d =>
    obtain ⟨e1, e2, r1, r2, r3⟩ := beside_raise hu h (.custom d) .critical
    simp only [parseAtomAsExpr, parseAtom, parseError, raise, r1, r2]
    exact .inr (.inr (.inl ⟨e1, e2, rfl, rfl, r3⟩))
  | dot =>
    simp only [safe] at hs
    cases w with
    | nil => exact absurd rfl (hh hs)
    | cons d w =>
      obtain ⟨t1, t2, g1, g2, h'⟩ := beside_get h
      simp only [parseAtomAsExpr, parseAtom, parseDot, g1, g2]
      exact .inr (.inl ⟨t1, t2, _, rfl, rfl, w, h', hnl (by simp)⟩)
  | eof =>
    cases w with
    | nil =>
      obtain ⟨t2, g, hn⟩ := beside_end hu hc h
      left
      simp only [parseAtomAsExpr, parseAtom, parseEof, g, raise, hn]
    | cons d w =>
      obtain ⟨t1, t2, g1, g2, h'⟩ := beside_get h
      obtain ⟨e1, e2, r1, r2, r3⟩ := beside_raise hu h' .eof .normal
      simp only [parseAtomAsExpr, parseAtom, parseEof, g1, g2, raise, r1, r2]
      exact .inr (.inr (.inl ⟨e1, e2, rfl, rfl, r3⟩))

theorem relate_none {s1 s2 : Status} {a b : Error} (h : Beside u x c v w s1 s2) (he : ErrRel a b) :
    Beside u x c v w (s1.setPotentialError a) (s2.setPotentialError b) :=
  ⟨h.at_, h.pos, h.it1, h.it2, h.text1, h.text2, h.trace, h.walk, .inr ⟨a, b, rfl, rfl, he⟩⟩

/-- two errors kept by a choice -/
def Kept (a b : Option Error) : Prop := (a = none ∧ b = none) ∨ ∃ x y, a = some x ∧ b = some y ∧ ErrRel x y

theorem kept_deep {a b : Option Error} {x y : Error} (h : Kept a b) (he : ErrRel x y) : Kept (deepErr a x) (deepErr b y) := by
  rcases h with ⟨rfl, rfl⟩ | ⟨p, q, rfl, rfl, h⟩
  · exact .inr ⟨x, y, rfl, rfl, he⟩
  · unfold deepErr
    simp only [h.1, h.2.2.2.2, he.1, he.2.2.2.2]
    cases q.priority.gt y.priority <;> cases decide (q.pos.n > y.pos.n)
    all_goals first | exact .inr ⟨x, y, rfl, rfl, he⟩ | exact .inr ⟨p, q, rfl, rfl, h⟩

theorem runs {R : SetOfRules} {F : Str} {S : List (Str × Bool)} {k0 : Nat} (hu : Ascii u) (hc : ¬ c.toNat < 128) (hF : ∀ a ∈ u, a ∉ F)
    (hS : ∀ n b e, S.contains (n, b) = true → R.get n = some e → safe R F S k0 b e = true) : ∀ f,
    (∀ {s1 s2 w b n}, Beside u x c v w s1 s2 → (b = true → w ≠ []) → (S.contains (n, b) = true ∨ R.get n = none) →
      InStep (fun t1 t2 => ∃ w', Beside u x c v w' t1 t2 ∧
        (∀ k h, (h = true → w ≠ []) → ends R k h (.ruleName n) = true → w' ≠ []) ∧ ∀ k, never R F k (.ruleName n) = false)
        (parseRuleName R f s1 n) (parseRuleName R f s2 n)) ∧
    (∀ {s1 s2 w b k e}, Beside u x c v w s1 s2 → (b = true → w ≠ []) → safe R F S k b e = true →
      InStep (fun t1 t2 => ∃ w', Beside u x c v w' t1 t2 ∧
        (∀ k h, (h = true → w ≠ []) → ends R k h e = true → w' ≠ []) ∧ ∀ k, never R F k e = false)
        (parseExpr R f s1 e) (parseExpr R f s2 e)) ∧
    (∀ {s1 s2 w b k es acc}, Beside u x c v w s1 s2 → (b = true → w ≠ []) →
      allParts (safe R F S k) (never R F k) (ends R k) b es = true →
      InStep (fun t1 t2 => ∃ w', Beside u x c v w' t1 t2 ∧ ∀ k, es.any (never R F k) = false)
        (parseAnd R f s1 es acc) (parseAnd R f s2 es acc)) ∧
    (∀ {s1 s2 w b k es a1 a2}, Beside u x c v w s1 s2 → (b = true → w ≠ []) → Kept a1 a2 →
      allAlts (safe R F S k) (looks R k) b es = true →
      InStep (fun t1 t2 => ∃ w', Beside u x c v w' t1 t2) (parseOr R f s1 es a1) (parseOr R f s2 es a2)) ∧
    (∀ {s1 s2 w b k e mn mx i acc}, Beside u x c v w s1 s2 → (b = true → w ≠ []) →
      (safe R F S k false e = true ∨ (safe R F S k b e = true ∧ never R F k e = true)) →
      InStep (fun t1 t2 => ∃ w', Beside u x c v w' t1 t2 ∧ (mx = none → ∀ k, looks R k e = true → w' ≠ []))
        (parseRepeat R f e mn mx s1 i acc) (parseRepeat R f e mn mx s2 i acc)) := by
  intro f
  induction f with
  | zero =>
    refine ⟨?_, ?_, ?_, ?_, ?_⟩ <;> intros <;> right <;> right <;> right
    · rw [parseRuleName, parseRuleName]; exact ⟨rfl, rfl⟩
    · rw [parseExpr, parseExpr]; exact ⟨rfl, rfl⟩
    · rw [parseAnd, parseAnd]; exact ⟨rfl, rfl⟩
    · rw [parseOr, parseOr]; exact ⟨rfl, rfl⟩
    · rw [parseRepeat, parseRepeat]; exact ⟨rfl, rfl⟩
  | succ f ih =>
    obtain ⟨ih1, ih2, ih3, ih4, ih5⟩ := ih
    refine ⟨?_, ?_, ?_, ?_, ?_⟩
    · intro s1 s2 w b n h hb hn
      rw [parseRuleName, parseRuleName, h.trace]
      have h' : Beside u x c v w (if s1.traceRules = true then s1.pushRule (c!"r:" ++ n) else s1)
          (if s1.traceRules = true then s2.pushRule (c!"r:" ++ n) else s2) := by
        split
        · exact ⟨h.at_, h.pos, h.it1, h.it2, h.text1, h.text2, h.trace, by simp only [Status.pushRule, h.walk], h.pot⟩
        · exact h
      cases hg : R.get n with
      | none => exact raise_sim hu h' _ _
      | some e =>
        simp only
        have hs : S.contains (n, b) = true := hn.resolve_right (by simp [hg])
        rcases ih2 h' hb (hS n b e hs hg) with h1 | ⟨t1, t2, ns, h1, h2, w', h3, h4, h5⟩ | ⟨e1, e2, h1, h2, h3⟩ | ⟨h1, h2⟩
        · rw [h1]; exact .inl rfl
        · rw [h1, h2]
          refine .inr (.inl ⟨t1, t2, _, rfl, rfl, w', h3, fun k h hh he => ?_, fun k => ?_⟩)
          · cases k with
            | zero => simp [ends] at he
            | succ k => simp only [ends, hg] at he; exact h4 k h hh he
          · cases k with
            | zero => rfl
            | succ k => simp only [never, hg]; exact h5 k
        · rw [h1, h2]; exact .inr (.inr (.inl ⟨e1, e2, rfl, rfl, h3⟩))
        · rw [h1, h2]; exact .inr (.inr (.inr ⟨rfl, rfl⟩))
    · intro s1 s2 w b k e h hb hs
      cases e with
      | simple a =>
        rw [parseExpr, parseExpr]
        rcases atom_step hu hc hF a h hb hs with h1 | ⟨t1, t2, ns, h1, h2, w', h3, h4⟩ | h1 | h1
        · exact .inl h1
        · refine .inr (.inl ⟨t1, t2, ns, h1, h2, w', h3, fun k h _ he => ?_, h4⟩)
          cases k <;> simp [ends] at he
        · exact .inr (.inr (.inl h1))
        · exact .inr (.inr (.inr h1))
      | and es =>
        cases k with
        | zero => simp [safe] at hs
        | succ k =>
          simp only [safe] at hs
          rw [parseExpr, parseExpr]
          rcases ih3 h hb hs with h1 | ⟨t1, t2, ns, h1, h2, w', h3, h4⟩ | h1 | h1
          · exact .inl h1
          · refine .inr (.inl ⟨t1, t2, ns, h1, h2, w', h3, fun k h _ he => ?_, fun k => ?_⟩)
            · cases k <;> simp [ends] at he
            · cases k with
              | zero => rfl
              | succ k => simp only [never]; exact h4 k
          · exact .inr (.inr (.inl h1))
          · exact .inr (.inr (.inr h1))
      | or es =>
        cases k with
        | zero => simp [safe] at hs
        | succ k =>
          simp only [safe] at hs
          rw [parseExpr, parseExpr]
          rcases ih4 h hb (.inl ⟨rfl, rfl⟩) hs with h1 | ⟨t1, t2, ns, h1, h2, w', h3⟩ | h1 | h1
          · exact .inl h1
          · refine .inr (.inl ⟨t1, t2, ns, h1, h2, w', h3, fun k h _ he => ?_, fun k => ?_⟩)
            · cases k <;> simp [ends] at he
            · cases k <;> simp [never]
          · exact .inr (.inr (.inl h1))
          · exact .inr (.inr (.inr h1))
      | not e =>
        cases k with
        | zero => simp [safe] at hs
        | succ k =>
          simp only [safe] at hs
          rw [parseExpr, parseExpr]
          have hend := fun k' (hl : looks R k' e = true) (hw : w = []) => looks_end (R := R) hu hc f (hw ▸ h) hl
          rcases ih2 h hb hs with h1 | ⟨t1, t2, ns, h1, h2, w', h3, h4, h5⟩ | ⟨e1, e2, h1, h2, h3⟩ | ⟨h1, h2⟩
          · rw [h1]; exact .inl rfl
          · rw [h1, h2]; exact raise_sim hu h _ _
          · rw [h1, h2]
            refine .inr (.inl ⟨s1, s2, [], rfl, rfl, w, h, fun k h hh he => ?_, fun k => ?_⟩)
            · cases k with
              | zero => simp [ends] at he
              | succ k =>
                simp only [ends, Bool.or_eq_true] at he
                rcases he with he | he
                · exact hh he
                · intro hw
                  rcases hend k he hw with h6 | h6 <;> rw [h6] at h2 <;> cases h2
            · cases k <;> simp [never]
          · rw [h1, h2]; exact .inr (.inr (.inr ⟨rfl, rfl⟩))
      | rep e mn mx =>
        cases k with
        | zero => simp [safe] at hs
        | succ k =>
          simp only [safe, Bool.or_eq_true, Bool.and_eq_true] at hs
          rw [parseExpr, parseExpr]
          rcases ih5 (mn := mn) (mx := mx) (i := 0) (acc := []) h hb hs with h1 | ⟨t1, t2, ns, h1, h2, w', h3, h4⟩ | h1 | h1
          · exact .inl h1
          · refine .inr (.inl ⟨t1, t2, ns, h1, h2, w', h3, fun k h _ he => ?_, fun k => ?_⟩)
            · cases k with
              | zero => simp [ends] at he
              | succ k =>
                cases mx with
                | none => simp only [ends] at he; exact h4 rfl k he
                | some m => simp [ends] at he
            · cases k <;> simp [never]
          · exact .inr (.inr (.inl h1))
          · exact .inr (.inr (.inr h1))
      | ruleName n =>
        cases k with
        | zero => simp [safe] at hs
        | succ k =>
          simp only [safe, Bool.or_eq_true, Bool.and_eq_true, Option.isNone_iff_eq_none] at hs
          rw [parseExpr, parseExpr]
          have hstep := show ∃ b', (b' = true → w ≠ []) ∧ (S.contains (n, b') = true ∨ R.get n = none) from by
            rcases hs with (hs | hs) | hs
            · exact ⟨false, by simp, .inl hs⟩
            · exact ⟨true, fun _ => hb hs.1, .inl hs.2⟩
            · exact ⟨false, by simp, .inr hs⟩
          obtain ⟨b', hb', hs'⟩ := hstep
          rcases ih1 h hb' hs' with h1 | ⟨t1, t2, ns, h1, h2, w', h3, h4⟩ | ⟨e1, e2, h1, h2, h3⟩ | ⟨h1, h2⟩
          · rw [h1]; exact .inl rfl
          · rw [h1, h2]; exact .inr (.inl ⟨t1, t2, _, rfl, rfl, w', h3, h4⟩)
          · rw [h1, h2]; exact .inr (.inr (.inl ⟨e1, e2, rfl, rfl, h3⟩))
          · rw [h1, h2]; exact .inr (.inr (.inr ⟨rfl, rfl⟩))
    · intro s1 s2 w b k es acc h hb hs
      cases es with
      | nil => rw [parseAnd, parseAnd]; exact .inr (.inl ⟨s1, s2, acc, rfl, rfl, w, h, fun _ => rfl⟩)
      | cons e es =>
        simp only [allParts, Bool.and_eq_true, Bool.or_eq_true] at hs
        rw [parseAnd, parseAnd]
        rcases ih2 h hb hs.1 with h1 | ⟨t1, t2, ns, h1, h2, w', h3, h4, h5⟩ | ⟨e1, e2, h1, h2, h3⟩ | ⟨h1, h2⟩
        · rw [h1]; exact .inl rfl
        · rw [h1, h2]
          simp only
          have hs' := hs.2.resolve_left (by rw [h5 k]; simp)
          rcases ih3 (acc := acc ++ ns) h3 (h4 k b hb) hs' with h1 | ⟨t1, t2, ns, h1, h2, w', h3, h4⟩ | h1 | h1
          · exact .inl h1
          · refine .inr (.inl ⟨t1, t2, ns, h1, h2, w', h3, fun k => ?_⟩)
            rw [List.any_cons, h5 k, h4 k]; rfl
          · exact .inr (.inr (.inl h1))
          · exact .inr (.inr (.inr h1))
        · rw [h1, h2]; exact .inr (.inr (.inl ⟨e1, e2, rfl, rfl, h3⟩))
        · rw [h1, h2]; exact .inr (.inr (.inr ⟨rfl, rfl⟩))
    · intro s1 s2 w b k es a1 a2 h hb ha hs
      cases es with
      | nil =>
        rcases ha with ⟨rfl, rfl⟩ | ⟨p, q, rfl, rfl, ha⟩
        · rw [parseOr, parseOr]; exact raise_sim hu h _ _
        · rw [parseOr, parseOr]; exact .inr (.inr (.inl ⟨p, q, rfl, rfl, ha⟩))
      | cons e es =>
        simp only [allAlts, Bool.and_eq_true] at hs
        rw [parseOr, parseOr]
        have hend := fun (hl : looks R k e = true) (hw : w = []) => looks_end (R := R) hu hc f (hw ▸ h) hl
        rcases ih2 h hb hs.1 with h1 | ⟨t1, t2, ns, h1, h2, w', h3, h4, h5⟩ | ⟨e1, e2, h1, h2, h3⟩ | ⟨h1, h2⟩
        · rw [h1]; exact .inl rfl
        · rw [h1, h2]; exact .inr (.inl ⟨t1, t2, _, rfl, rfl, w', h3⟩)
        · rw [h1, h2]
          simp only [h3.2.2.2.2]
          split
          · exact .inr (.inr (.inl ⟨e1, e2, rfl, rfl, h3⟩))
          · refine ih4 h ?_ (kept_deep ha h3) hs.2
            intro hh hw
            rw [Bool.or_eq_true] at hh
            rcases hh with hh | hh
            · exact hb hh hw
            · rcases hend hh hw with h6 | h6 <;> rw [h6] at h2 <;> cases h2
        · rw [h1, h2]; exact .inr (.inr (.inr ⟨rfl, rfl⟩))
    · intro s1 s2 w b k e mn mx i acc h hb hs
      rw [parseRepeat, parseRepeat]
      have hend := fun k' (hl : looks R k' e = true) (hw : w = []) => looks_end (R := R) hu hc f (hw ▸ h) hl
      have hstep : InStep (fun t1 t2 => ∃ w', Beside u x c v w' t1 t2 ∧
          (∀ k h, (h = true → w ≠ []) → ends R k h e = true → w' ≠ []) ∧ ∀ k, never R F k e = false)
          (parseExpr R f s1 e) (parseExpr R f s2 e) := by
        rcases hs with hs | hs
        · exact ih2 h (by simp) hs
        · exact ih2 h hb hs.1
      rcases hstep with h1 | ⟨t1, t2, ns, h1, h2, w', h3, h4, h5⟩ | ⟨e1, e2, h1, h2, h3⟩ | ⟨h1, h2⟩
      · rw [h1]; exact .inl rfl
      · rw [h1, h2]
        simp only
        split
        · rename_i ht
          refine .inr (.inl ⟨t1, t2, _, rfl, rfl, w', h3, fun hm => ?_⟩)
          rw [hm] at ht; simp [touchMaxBound] at ht
        · exact ih5 (b := false) h3 (by simp) (.inl (hs.resolve_right (by rw [h5 k]; simp)))
      · rw [h1, h2]
        simp only [h3.2.2.2.2]
        split
        · split
          · exact .inr (.inr (.inl ⟨e1, e2, rfl, rfl, h3⟩))
          · refine .inr (.inl ⟨_, _, _, rfl, rfl, w, relate_none h h3, fun _ k' hl hw => ?_⟩)
            rcases hend k' hl hw with h6 | h6 <;> rw [h6] at h2 <;> cases h2
        · exact .inr (.inr (.inl ⟨e1, e2, rfl, rfl, h3⟩))
      · rw [h1, h2]; exact .inr (.inr (.inr ⟨rfl, rfl⟩))

end

end DP.NonAscii
