/-
The parser with the numbers of the machine (Model/Machine.lean) and the parser with natural numbers
(Model/Parser.lean).
-/
import Verif.Model.Machine
import Verif.Spec.Machine
import Verif.Proofs.Report

namespace DP
open Spec

/-! ### What a run depends on -/

/-- the same point of the same text, whatever was recorded on the way -/
structure Spot (a b : Status) : Prop where
  text : a.text2parse = b.text2parse
  rest : a.itParsing = b.itParsing
  pos : a.pos = b.pos
  trace : a.traceRules = b.traceRules

theorem Spot.refl (a : Status) : Spot a a := ⟨rfl, rfl, rfl, rfl⟩
theorem Spot.trans {a b c} (h : Spot a b) (h' : Spot b c) : Spot a c :=
  ⟨h.text.trans h'.text, h.rest.trans h'.rest, h.pos.trans h'.pos, h.trace.trans h'.trace⟩
theorem Spot.symm {a b} (h : Spot a b) : Spot b a := ⟨h.text.symm, h.rest.symm, h.pos.symm, h.trace.symm⟩

/-- both succeed at the same point, both fail with the same priority, … -/
def Akin {α : Type} : Out Error (Status × α) → Out Error (Status × α) → Prop
  | .ok x, .ok y => Spot x.1 y.1
  | .err e, .err e' => e.priority = e'.priority
  | .panic, .panic => True
  | .diverge, .diverge => True
  | _, _ => False

theorem akin_raise {α : Type} {a b} (h : Spot a b) (d p) :
    Akin (raise a d p : Out Error (Status × α)) (raise b d p) := by
  unfold raise fromStatus
  rw [h.text, h.pos]
  cases slice b.text2parse b.pos.startLine b.pos.n <;> simp [Akin]

theorem spot_get {a b} (h : Spot a b) :
    (getChar a = .error a ∧ getChar b = .error b) ∨
    ∃ a' b' c, getChar a = .ok (a', c) ∧ getChar b = .ok (b', c) ∧ Spot a' b' := by
  unfold getChar
  rw [h.rest]
  cases b.itParsing with
  | nil => exact .inl ⟨rfl, rfl⟩
  | cons c r =>
    refine .inr ⟨_, _, c, rfl, rfl, h.text, rfl, ?_, h.trace⟩
    simp only [h.pos]

theorem spot_literal (lit : Str) : ∀ (l : Str) {a b}, Spot a b →
    Akin (match parseLiteralLoop lit a l with
      | .ok st => .ok (st, Node.val lit) | .err e => .err e | .panic => .panic | .diverge => .diverge)
     (match parseLiteralLoop lit b l with
      | .ok st => .ok (st, Node.val lit) | .err e => .err e | .panic => .panic | .diverge => .diverge)
  | [], a, b, h => h
  | c :: l, a, b, h => by
    unfold parseLiteralLoop parseChar
    rcases spot_get h with ⟨h1, h2⟩ | ⟨a', b', d, h1, h2, h'⟩
    · rw [h1, h2]
      have := akin_raise (α := Node) h (.literal lit) .normal
      unfold raise at this ⊢
      simp only
      revert this
      cases fromStatus a (.literal lit) .normal <;> cases fromStatus b (.literal lit) .normal <;> exact id
    · rw [h1, h2]
      by_cases hc : c = d
      · simp only [hc, if_true]; exact spot_literal lit l h'
      · simp only [hc, if_false]
        have := akin_raise (α := Node) h' (.literal lit) .normal
        unfold raise at this ⊢
        revert this
        cases fromStatus a' (.literal lit) .normal <;> cases fromStatus b' (.literal lit) .normal <;> exact id

theorem spot_atom {a b} (h : Spot a b) (x : Atom) : Akin (parseAtom a x) (parseAtom b x) := by
  cases x with
  | literal s => exact spot_literal s s h
  | error s => exact akin_raise h _ _
  | mtch cs rs =>
    simp only [parseAtom, parseMatch]
    rcases spot_get h with ⟨h1, h2⟩ | ⟨a', b', d, h1, h2, h'⟩
    · rw [h1, h2]; exact akin_raise h _ _
    · rw [h1, h2]
      simp only
      split
      · exact h'
      · exact akin_raise h' _ _
  | dot =>
    simp only [parseAtom, parseDot]
    rcases spot_get h with ⟨h1, h2⟩ | ⟨a', b', d, h1, h2, h'⟩
    · rw [h1, h2]; exact akin_raise h _ _
    · rw [h1, h2]; exact h'
  | eof =>
    simp only [parseAtom, parseEof]
    rcases spot_get h with ⟨h1, h2⟩ | ⟨a', b', d, h1, h2, h'⟩
    · rw [h1, h2]; exact h
    · rw [h1, h2]; exact akin_raise h' _ _

/-- errors collected by a choice: as many, none of them final -/
def Mild : Option Error → Option Error → Prop
  | none, none => True
  | some a, some b => a.priority = .normal ∧ b.priority = .normal
  | _, _ => False

theorem mild_deep {x y : Option Error} {a b : Error} (h : Mild x y) (ha : a.priority = .normal)
    (hb : b.priority = .normal) : Mild (deepErr x a) (deepErr y b) := by
  rcases deepErr_cases x a with h1 | ⟨a', rfl, h1⟩ <;> rcases deepErr_cases y b with h2 | ⟨b', rfl, h2⟩ <;> rw [h1, h2]
  · exact ⟨ha, hb⟩
  · cases x with
    | none => exact False.elim h
    | some x => exact ⟨ha, h.2⟩
  · cases y with
    | none => exact False.elim h
    | some y => exact ⟨h.1, hb⟩
  · exact h

theorem spot_push {a b} (h : Spot a b) (n : Str) :
    Spot (if a.traceRules = true then a.pushRule (c!"r:" ++ n) else a)
      (if b.traceRules = true then b.pushRule (c!"r:" ++ n) else b) := by
  rw [h.trace]
  split
  · exact ⟨h.text, h.rest, h.pos, h.trace⟩
  · exact h

theorem normal_of_ne {e : Error} (h : ¬ e.priority = .critical) : e.priority = .normal := by
  cases hp : e.priority with
  | normal => rfl
  | critical => exact absurd hp h

/-- What has been recorded on the way does not influence where a run ends. -/
theorem spot_run (R : SetOfRules) : ∀ f,
    (∀ a b n, Spot a b → Akin (parseRuleName R f a n) (parseRuleName R f b n)) ∧
    (∀ a b e, Spot a b → Akin (parseExpr R f a e) (parseExpr R f b e)) ∧
    (∀ a b es acc acc', Spot a b → Akin (parseAnd R f a es acc) (parseAnd R f b es acc')) ∧
    (∀ a b es acc acc', Spot a b → Mild acc acc' → Akin (parseOr R f a es acc) (parseOr R f b es acc')) ∧
    (∀ e mn mx a b k acc acc', Spot a b →
      Akin (parseRepeat R f e mn mx a k acc) (parseRepeat R f e mn mx b k acc')) := by
  intro f
  induction f with
  | zero =>
    refine ⟨?_, ?_, ?_, ?_, ?_⟩ <;> intros
    · simp [parseRuleName, Akin]
    · simp [parseExpr, Akin]
    · simp [parseAnd, Akin]
    · simp [parseOr, Akin]
    · simp [parseRepeat, Akin]
  | succ f ih =>
    obtain ⟨ih1, ih2, ih3, ih4, ih5⟩ := ih
    refine ⟨?_, ?_, ?_, ?_, ?_⟩
    · intro a b n h
      rw [parseRuleName, parseRuleName]
      have h' := spot_push h n
      cases R.get n with
      | none => exact akin_raise h' _ _
      | some e =>
        have := ih2 _ _ e h'
        simp only
        revert this
        generalize parseExpr R f _ e = x
        generalize parseExpr R f _ e = y
        cases x <;> cases y <;> exact id
    · intro a b e h
      cases e with
      | simple x =>
        rw [parseExpr, parseExpr, parseAtomAsExpr, parseAtomAsExpr]
        have := spot_atom h x
        revert this
        cases parseAtom a x <;> cases parseAtom b x <;> exact id
      | and es => rw [parseExpr, parseExpr]; exact ih3 _ _ _ _ _ h
      | or es => rw [parseExpr, parseExpr]; exact ih4 _ _ _ _ _ h trivial
      | not e =>
        rw [parseExpr, parseExpr]
        have := ih2 _ _ e h
        revert this
        cases parseExpr R f a e <;> cases parseExpr R f b e <;> intro this <;>
          first | exact akin_raise h _ _ | exact h | exact this | exact False.elim this
      | rep e mn mx => rw [parseExpr, parseExpr]; exact ih5 _ _ _ _ _ _ _ _ h
      | ruleName n =>
        rw [parseExpr, parseExpr]
        have := ih1 _ _ n h
        revert this
        cases parseRuleName R f a n <;> cases parseRuleName R f b n <;> exact id
    · intro a b es acc acc' h
      cases es with
      | nil => rw [parseAnd, parseAnd]; exact h
      | cons e es =>
        rw [parseAnd, parseAnd]
        have := ih2 _ _ e h
        revert this
        cases parseExpr R f a e <;> cases parseExpr R f b e <;> intro this <;>
          first | exact ih3 _ _ _ _ _ this | exact this | exact False.elim this
    · intro a b es acc acc' h hm
      cases es with
      | nil =>
        cases acc <;> cases acc' <;> rw [parseOr, parseOr] <;>
          first | exact False.elim hm | exact akin_raise h _ _ | exact hm.1.trans hm.2.symm
      | cons e es =>
        rw [parseOr, parseOr]
        have := ih2 _ _ e h
        revert this
        cases parseExpr R f a e <;> cases parseExpr R f b e <;> intro this <;>
          first | exact False.elim this | exact this | skip
        rename_i ea eb
        simp only
        have this : ea.priority = eb.priority := this
        rw [this]
        split
        · exact this
        · rename_i hn
          exact ih4 _ _ _ _ _ h (mild_deep hm (normal_of_ne (by rw [this]; exact hn)) (normal_of_ne hn))
    · intro e mn mx a b k acc acc' h
      rw [parseRepeat, parseRepeat]
      have := ih2 _ _ e h
      revert this
      cases parseExpr R f a e <;> cases parseExpr R f b e <;> intro this <;>
        first | exact False.elim this | exact this | skip
      · simp only
        split
        · exact this
        · exact ih5 _ _ _ _ _ _ _ _ this
      · rename_i ea eb
        have this : ea.priority = eb.priority := this
        simp only [this]
        split
        · split
          · exact this
          · exact ⟨h.text, h.rest, h.pos, h.trace⟩
        · exact this

/-- An unbounded repetition whose body succeeds without reading anything never ends. -/
theorem repeat_in_place {R : SetOfRules} {f st st' e ns mx} (hm : mx = none ∨ mx = some 0)
    (h : parseExpr R f st e = .ok (st', ns)) (hs : Spot st st') :
    ∀ g mn k acc a, Spot st a → parseRepeat R g e mn mx a k acc = .diverge := by
  intro g
  induction g with
  | zero => intros; rw [parseRepeat]
  | succ g ih =>
    intro mn k acc a ha
    rw [parseRepeat]
    have h1 := (spot_run R g).2.1 st a e ha
    cases hx : parseExpr R g st e with
    | diverge =>
      rw [hx] at h1
      cases hy : parseExpr R g a e with
      | diverge => rfl
      | _ => rw [hy] at h1; exact False.elim h1
    | _ =>
      have e1 := parseExpr_mono (Nat.le_max_left f g) h (by simp)
      have e2 := parseExpr_mono (Nat.le_max_right f g) hx (by simp)
      rw [e1] at e2
      first
      | (exfalso; cases e2; done)
      | (rw [← e2] at hx
         rw [hx] at h1
         cases hy : parseExpr R g a e with
         | ok y =>
           rw [hy] at h1
           have ht : touchMaxBound mx k = false := by
             rcases hm with rfl | rfl <;> simp [touchMaxBound]
           simp only [ht]
           exact ih _ _ _ _ (hs.trans h1)
         | _ => exact False.elim (by rw [hy] at h1; exact h1))

/-! ### Where the machine is exact -/

namespace Machine

/-- One more unit of fuel does not change a finished result. -/
theorem fuel_step (U : Usize) (R : SetOfRules) : ∀ f,
    (∀ st n, Out.le (parseRuleName U R f st n) (parseRuleName U R (f+1) st n)) ∧
    (∀ st e, Out.le (parseExpr U R f st e) (parseExpr U R (f+1) st e)) ∧
    (∀ st es acc, Out.le (parseAnd U R f st es acc) (parseAnd U R (f+1) st es acc)) ∧
    (∀ st es acc, Out.le (parseOr U R f st es acc) (parseOr U R (f+1) st es acc)) ∧
    (∀ e mn mx st k acc,
      Out.le (parseRepeat U R f e mn mx st k acc) (parseRepeat U R (f+1) e mn mx st k acc)) := by
  intro f
  induction f with
  | zero =>
    refine ⟨?_, ?_, ?_, ?_, ?_⟩ <;> intros <;> left
    · simp [parseRuleName]
    · simp [parseExpr]
    · simp [parseAnd]
    · simp [parseOr]
    · simp [parseRepeat]
  | succ f ih =>
    obtain ⟨ih1, ih2, ih3, ih4, ih5⟩ := ih
    refine ⟨?_, ?_, ?_, ?_, ?_⟩
    · intro st n
      rw [parseRuleName, parseRuleName]
      cases R.get n with
      | none => exact Or.inr rfl
      | some e =>
        simp only
        rcases ih2 (if st.traceRules = true then st.pushRule (c!"r:" ++ n) else st) e with h | h
        · left; rw [h]
        · right; rw [h]
    · intro st e
      cases e with
      | simple a => right; rw [parseExpr, parseExpr]
      | and es => rw [parseExpr, parseExpr]; exact ih3 st es []
      | or es => rw [parseExpr, parseExpr]; exact ih4 st es none
      | not e =>
        rw [parseExpr, parseExpr]
        rcases ih2 st e with h | h
        · left; rw [h]
        · right; rw [h]
      | rep e mn mx => rw [parseExpr, parseExpr]; exact ih5 e mn mx st 0 []
      | ruleName n =>
        rw [parseExpr, parseExpr]
        rcases ih1 st n with h | h
        · left; rw [h]
        · right; rw [h]
    · intro st es acc
      cases es with
      | nil => right; rw [parseAnd, parseAnd]
      | cons e es =>
        rw [parseAnd, parseAnd]
        rcases ih2 st e with h | h
        · left; rw [h]
        · rw [← h]
          cases parseExpr U R f st e with
          | ok a => exact ih3 _ _ _
          | err e => exact Or.inr rfl
          | panic => exact Or.inr rfl
          | diverge => exact Or.inr rfl
    · intro st es acc
      cases es with
      | nil => right; cases acc <;> rw [parseOr, parseOr]
      | cons e es =>
        rw [parseOr, parseOr]
        rcases ih2 st e with h | h
        · left; rw [h]
        · rw [← h]
          cases parseExpr U R f st e with
          | ok a => exact Or.inr rfl
          | err e =>
            simp only
            split
            · exact Or.inr rfl
            · exact ih4 _ _ _
          | panic => exact Or.inr rfl
          | diverge => exact Or.inr rfl
    · intro e mn mx st k acc
      rw [parseRepeat, parseRepeat]
      rcases ih2 st e with h | h
      · left; rw [h]
      · rw [← h]
        cases parseExpr U R f st e with
        | ok a =>
          simp only
          cases touchMaxBound U mx k with
          | none => exact Or.inr rfl
          | some b =>
            cases b with
            | true => exact Or.inr rfl
            | false =>
              simp only
              cases U.succ k with
              | none => exact Or.inr rfl
              | some c => exact ih5 _ _ _ _ _ _
        | err e => exact Or.inr rfl
        | panic => exact Or.inr rfl
        | diverge => exact Or.inr rfl

theorem parseWithDebugF_step (U : Usize) (s : Str) (R : SetOfRules) (b : Bool) (f : Nat) :
    Out.le (parseWithDebugF U f s R b) (parseWithDebugF U (f+1) s R b) := by
  unfold parseWithDebugF
  have h : Out.le
      (if b = true then parseRuleName U R f (Status.initDebug s b) c!"main"
        else parseRuleName U R f (Status.init s) c!"main")
      (if b = true then parseRuleName U R (f+1) (Status.initDebug s b) c!"main"
        else parseRuleName U R (f+1) (Status.init s) c!"main") := by
    split <;> exact (fuel_step U R f).1 _ _
  rcases h with h | h
  · left; rw [h]
  · right; rw [h]

/-- The coordinates of a point of a text are at most its length. -/
theorem coords_le {pre p} (h : CoordsOf pre p) : p.n = pre.length ∧ p.row ≤ pre.length ∧ p.col ≤ pre.length := by
  refine ⟨h.n, ?_, ?_⟩
  · rw [h.row]; exact List.count_le_length
  · rw [h.col]
    unfold sinceBreak
    simp only [List.length_reverse]
    exact (List.takeWhile_sublist _).length_le.trans (by simp)

theorem get_exact {U : Usize} {text st} (hl : text.length < U.size) (h : Inv text st) :
    getChar U st = some (DP.getChar st) := by
  obtain ⟨_, pre, hs, hc⟩ := h
  obtain ⟨h1, h2, h3⟩ := coords_le hc
  unfold getChar DP.getChar
  cases hi : st.itParsing with
  | nil => rfl
  | cons c r =>
    rw [hi] at hs
    have : pre.length + 1 ≤ text.length := by rw [hs]; simp
    simp only
    rw [U.exact st.pos.n (by omega), U.exact st.pos.row (by omega), U.exact st.pos.col (by omega)]
    simp only
    split
    · rfl
    · split <;> rfl

theorem literal_exact {U : Usize} {text} (hl : text.length < U.size) (lit : Str) : ∀ (l : Str) {st}, Inv text st →
    parseLiteralLoop U lit st l = DP.parseLiteralLoop lit st l
  | [], st, h => rfl
  | c :: l, st, h => by
    unfold parseLiteralLoop DP.parseLiteralLoop parseChar DP.parseChar
    rw [get_exact hl h]
    cases hg : DP.getChar st with
    | error st' => rfl
    | ok x =>
      obtain ⟨st', d⟩ := x
      by_cases hc : c = d
      · simp only [hc, if_true]; exact literal_exact hl lit l (inv_get h hg)
      · simp only [hc, if_false]

theorem atom_exact {U : Usize} {text st} (hl : text.length < U.size) (h : Inv text st) (a : Atom) :
    parseAtom U st a = DP.parseAtom st a := by
  cases a with
  | literal s =>
    simp only [parseAtom, DP.parseAtom, parseLiteral, DP.parseLiteral]
    rw [literal_exact hl s s h]
    cases DP.parseLiteralLoop s st s <;> rfl
  | error s => rfl
  | mtch cs rs =>
    simp only [parseAtom, DP.parseAtom, parseMatch, DP.parseMatch]
    rw [get_exact hl h]
    cases DP.getChar st <;> rfl
  | dot =>
    simp only [parseAtom, DP.parseAtom, parseDot, DP.parseDot]
    rw [get_exact hl h]
    cases DP.getChar st <;> rfl
  | eof =>
    simp only [parseAtom, DP.parseAtom, parseEof, DP.parseEof]
    rw [get_exact hl h]
    cases DP.getChar st <;> rfl

/-- the parser is at a point of `s`, with at most `k` characters left -/
structure At (s : Str) (b : Bool) (k : Nat) (st : Status) : Prop extends Inv s st where
  trace : st.traceRules = b
  left : st.itParsing.length ≤ k

theorem at_after {R s b k f st e x} (hI : At s b k st) (h : DP.parseExpr R f st e = .ok x) : At s b k x.1 := by
  have H : Preserved R (fun _ => True) (At s b k) (fun _ => True) True :=
    { get := fun h hg => ⟨inv_get h.toInv hg, by
        obtain ⟨hi, _, _, ht, _, _⟩ := getChar_ok hg; rw [ht]; exact h.trace, by
        have := (getChar_ok hg).1
        have h2 := h.left
        rw [this] at h2
        simp only [List.length_cons] at h2
        omega⟩
      push := fun h _ _ => ⟨⟨h.text, h.at_⟩, h.trace, h.left⟩
      pot := fun h _ _ => ⟨⟨h.text, h.at_⟩, h.trace, h.left⟩
      err := fun _ _ _ => trivial
      pan := fun _ _ _ => trivial }
  have := (preserve H (fun _ _ _ _ _ => trivial) f).2.1 st e hI (fun _ _ => trivial)
  rw [h] at this; exact this

/-- Two points of a text with equally much left are the same. -/
theorem spot_of_length {s a b} (ha : Inv s a) (hb : Inv s b) (ht : a.traceRules = b.traceRules)
    (hl : a.itParsing.length = b.itParsing.length) : Spot a b := by
  obtain ⟨h1, p, hp, hc⟩ := ha
  obtain ⟨h2, q, hq, hd⟩ := hb
  have := List.append_inj' (hp.symm.trans hq) hl
  obtain ⟨e1, e2⟩ := this
  subst e1
  exact ⟨h1.trans h2.symm, e2, coords_unique hc hd, ht⟩

/-- what a repetition counts to -/
structure Counts (U : Usize) (s : Str) (mx : Option Nat) (st : Status) (k : Nat) : Prop where
  fits : ∀ m, mx = some m → m < U.size
  below : ∀ m, mx = some m → m ≠ 0 → k < m
  read : mx = none ∨ mx = some 0 → k + st.itParsing.length ≤ s.length

theorem Counts.touch {U : Usize} {s mx st k} (hl : s.length + 1 < U.size) (h : Counts U s mx st k) :
    touchMaxBound U mx k = some (DP.touchMaxBound mx k) := by
  cases mx with
  | none => rfl
  | some m =>
    have : k + 1 < U.size := by
      by_cases hm : m = 0
      · have := h.read (.inr (by rw [hm])); omega
      · have := h.below m rfl hm; have := h.fits m rfl; omega
    unfold touchMaxBound DP.touchMaxBound
    simp only [U.exact k this]

/-- **As long as the parser with natural numbers returns, the machine does the same.** -/
theorem exact_run {U : Usize} {text : Str} (hl : text.length + 1 < U.size) {R : SetOfRules}
    (hR : FitsIn U.size R) : ∀ f,
    (∀ st n, Inv text st → DP.parseRuleName R f st n ≠ .diverge →
      parseRuleName U R f st n = DP.parseRuleName R f st n) ∧
    (∀ st e, Inv text st → (∀ m, Maximum e m → m < U.size) → DP.parseExpr R f st e ≠ .diverge →
      parseExpr U R f st e = DP.parseExpr R f st e) ∧
    (∀ st es acc, Inv text st → (∀ e ∈ es, ∀ m, Maximum e m → m < U.size) → DP.parseAnd R f st es acc ≠ .diverge →
      parseAnd U R f st es acc = DP.parseAnd R f st es acc) ∧
    (∀ st es acc, Inv text st → (∀ e ∈ es, ∀ m, Maximum e m → m < U.size) → DP.parseOr R f st es acc ≠ .diverge →
      parseOr U R f st es acc = DP.parseOr R f st es acc) ∧
    (∀ e mn mx st k acc, Inv text st → (∀ m, Maximum e m → m < U.size) → Counts U text mx st k →
      DP.parseRepeat R f e mn mx st k acc ≠ .diverge →
      parseRepeat U R f e mn mx st k acc = DP.parseRepeat R f e mn mx st k acc) := by
  intro f
  induction f with
  | zero =>
    refine ⟨?_, ?_, ?_, ?_, ?_⟩ <;> intros <;> rename_i hd
    · simp [DP.parseRuleName] at hd
    · simp [DP.parseExpr] at hd
    · simp [DP.parseAnd] at hd
    · simp [DP.parseOr] at hd
    · simp [DP.parseRepeat] at hd
  | succ f ih =>
    obtain ⟨ih1, ih2, ih3, ih4, ih5⟩ := ih
    refine ⟨?_, ?_, ?_, ?_, ?_⟩
    · intro st n hI hd
      rw [DP.parseRuleName] at hd
      rw [parseRuleName, DP.parseRuleName]
      cases hg : R.get n with
      | none => rfl
      | some e =>
        rw [hg] at hd
        simp only at hd ⊢
        have hI' : Inv text (if st.traceRules = true then st.pushRule (c!"r:" ++ n) else st) := by
          split
          · exact ⟨hI.text, hI.at_⟩
          · exact hI
        rw [ih2 _ e hI' (fun m hm => hR n e m hg hm) (fun h => hd (by rw [h]))]
        cases DP.parseExpr R f _ e <;> rfl
    · intro st e hI hm hd
      cases e with
      | simple a =>
        rw [parseExpr, DP.parseExpr, parseAtomAsExpr, DP.parseAtomAsExpr, atom_exact (by omega) hI]
        cases DP.parseAtom st a <;> rfl
      | and es =>
        rw [DP.parseExpr] at hd
        rw [parseExpr, DP.parseExpr]
        exact ih3 _ _ _ hI (fun e he m h => hm m (.and he h)) hd
      | or es =>
        rw [DP.parseExpr] at hd
        rw [parseExpr, DP.parseExpr]
        exact ih4 _ _ _ hI (fun e he m h => hm m (.or he h)) hd
      | not e =>
        rw [DP.parseExpr] at hd
        rw [parseExpr, DP.parseExpr]
        rw [ih2 _ e hI (fun m h => hm m (.not h)) (fun h => hd (by rw [h]))]
        cases DP.parseExpr R f st e <;> rfl
      | rep e mn mx =>
        rw [DP.parseExpr] at hd
        rw [parseExpr, DP.parseExpr]
        refine ih5 _ _ _ _ _ _ hI (fun m h => hm m (.rep h)) ⟨?_, ?_, ?_⟩ hd
        · rintro m rfl; exact hm m (.here m)
        · intro m _ h; omega
        · intro _
          obtain ⟨_, pre, hs, _⟩ := hI
          rw [hs]; simp
      | ruleName n =>
        rw [DP.parseExpr] at hd
        rw [parseExpr, DP.parseExpr]
        rw [ih1 _ n hI (fun h => hd (by rw [h]))]
        cases DP.parseRuleName R f st n <;> rfl
    · intro st es acc hI hm hd
      cases es with
      | nil => rw [parseAnd, DP.parseAnd]
      | cons e es =>
        rw [DP.parseAnd] at hd
        rw [parseAnd, DP.parseAnd]
        rw [ih2 _ e hI (hm e (by simp)) (fun h => hd (by rw [h]))]
        cases hx : DP.parseExpr R f st e with
        | ok x =>
          rw [hx] at hd
          exact ih3 _ _ _ (inv_after hI hx) (fun e he => hm e (by simp [he])) hd
        | _ => rfl
    · intro st es acc hI hm hd
      cases es with
      | nil => cases acc <;> rw [parseOr, DP.parseOr]
      | cons e es =>
        rw [DP.parseOr] at hd
        rw [parseOr, DP.parseOr]
        rw [ih2 _ e hI (hm e (by simp)) (fun h => hd (by rw [h]))]
        cases hx : DP.parseExpr R f st e with
        | err er =>
          rw [hx] at hd
          simp only at hd ⊢
          split
          · rfl
          · rename_i hn
            rw [if_neg hn] at hd
            exact ih4 _ _ _ hI (fun e he => hm e (by simp [he])) hd
        | _ => rfl
    · intro e mn mx st k acc hI hm hc hd
      rw [DP.parseRepeat] at hd
      rw [parseRepeat, DP.parseRepeat]
      rw [ih2 _ e hI hm (fun h => hd (by rw [h])), hc.touch hl]
      cases hx : DP.parseExpr R f st e with
      | panic => rfl
      | diverge => rfl
      | err er => rfl
      | ok x =>
        obtain ⟨st', ns⟩ := x
        rw [hx] at hd
        simp only at hd ⊢
        cases ht : DP.touchMaxBound mx k with
        | true => rfl
        | false =>
          simp only [ht, Bool.false_eq_true, if_false] at hd ⊢
          have hA := at_after (k := st.itParsing.length) ⟨hI, rfl, Nat.le_refl _⟩ hx
          have hread : mx = none ∨ mx = some 0 → k + 1 + st'.itParsing.length ≤ text.length := by
            intro hmx
            have h1 := hc.read hmx
            have h2 := hA.left
            simp only at h2
            by_cases hlt : st'.itParsing.length < st.itParsing.length
            · omega
            · exact absurd (repeat_in_place hmx hx
                (spot_of_length hI hA.toInv hA.trace.symm (by omega)) f mn (k + 1) (acc ++ ns) st'
                (spot_of_length hI hA.toInv hA.trace.symm (by omega))) hd
          have hbelow : ∀ m, mx = some m → m ≠ 0 → k + 1 < m := by
            rintro m rfl h0
            have := hc.below m rfl h0
            simp only [DP.touchMaxBound, beq_eq_false_iff_ne, ne_eq] at ht
            omega
          have hlt : k + 1 < U.size := by
            cases hmx : mx with
            | none => have := hread (.inl hmx); omega
            | some m =>
              by_cases h0 : m = 0
              · have := hread (.inr (by rw [hmx, h0])); omega
              · have := hbelow m hmx h0; have := hc.fits m hmx; omega
          rw [U.exact k hlt]
          exact ih5 _ _ _ _ _ _ hA.toInv hm ⟨hc.fits, hbelow, hread⟩ hd

theorem exact_api {U : Usize} {s : Str} (hl : s.length + 1 < U.size) {R : SetOfRules} (hR : FitsIn U.size R)
    {f b} (hd : DP.parseWithDebugF f s R b ≠ .diverge) :
    parseWithDebugF U f s R b = DP.parseWithDebugF f s R b := by
  unfold DP.parseWithDebugF parseMain at hd
  unfold parseWithDebugF DP.parseWithDebugF parseMain
  cases b with
  | true =>
    simp only [if_true] at hd ⊢
    rw [(exact_run hl hR f).1 _ _ (inv_initDebug s true) (fun h => hd (by rw [h]))]
    cases DP.parseRuleName R f (Status.initDebug s true) c!"main" <;> rfl
  | false =>
    simp only [Bool.false_eq_true, if_false] at hd ⊢
    rw [(exact_run hl hR f).1 _ _ (inv_init s) (fun h => hd (by rw [h]))]
    cases DP.parseRuleName R f (Status.init s) c!"main" <;> rfl

/-! ### With overflow checks -/

/-- the same, or a panic -/
def SameOrPanic {ε α : Type} (x y : Out ε α) : Prop := x = .panic ∨ x = y

/-- overflow panics -/
def Checked (U : Usize) : Prop := ∀ n, U.succ n = none ∨ U.succ n = some (n + 1)

theorem get_checked {U : Usize} (hU : Checked U) (st) : getChar U st = none ∨ getChar U st = some (DP.getChar st) := by
  unfold getChar DP.getChar
  cases st.itParsing with
  | nil => exact .inr rfl
  | cons c r =>
    rcases hU st.pos.n with h1 | h1 <;> rw [h1]
    · exact .inl rfl
    · simp only
      split
      · rcases hU st.pos.row with h2 | h2 <;> rw [h2]
        · exact .inl rfl
        · exact .inr rfl
      · split
        · exact .inr rfl
        · rcases hU st.pos.col with h2 | h2 <;> rw [h2]
          · exact .inl rfl
          · exact .inr rfl

theorem literal_checked {U : Usize} (hU : Checked U) (lit : Str) : ∀ (l : Str) (st),
    SameOrPanic (parseLiteralLoop U lit st l) (DP.parseLiteralLoop lit st l)
  | [], st => .inr rfl
  | c :: l, st => by
    unfold parseLiteralLoop DP.parseLiteralLoop parseChar DP.parseChar
    rcases get_checked hU st with h | h <;> rw [h]
    · exact .inl rfl
    · cases hg : DP.getChar st with
      | error st' => exact .inr rfl
      | ok x =>
        obtain ⟨st', d⟩ := x
        by_cases hc : c = d
        · simp only [hc, if_true]; exact literal_checked hU lit l st'
        · simp only [hc, if_false]; exact .inr rfl

theorem atom_checked {U : Usize} (hU : Checked U) (st) (a : Atom) :
    SameOrPanic (parseAtom U st a) (DP.parseAtom st a) := by
  cases a with
  | literal s =>
    simp only [parseAtom, DP.parseAtom, parseLiteral, DP.parseLiteral]
    rcases literal_checked hU s s st with h | h <;> rw [h]
    · exact .inl rfl
    · exact .inr rfl
  | error s => exact .inr rfl
  | mtch cs rs =>
    simp only [parseAtom, DP.parseAtom, parseMatch, DP.parseMatch]
    rcases get_checked hU st with h | h <;> rw [h]
    · exact .inl rfl
    · right; cases DP.getChar st <;> rfl
  | dot =>
    simp only [parseAtom, DP.parseAtom, parseDot, DP.parseDot]
    rcases get_checked hU st with h | h <;> rw [h]
    · exact .inl rfl
    · right; cases DP.getChar st <;> rfl
  | eof =>
    simp only [parseAtom, DP.parseAtom, parseEof, DP.parseEof]
    rcases get_checked hU st with h | h <;> rw [h]
    · exact .inl rfl
    · right; cases DP.getChar st <;> rfl

theorem touch_checked {U : Usize} (hU : Checked U) (mx k) :
    touchMaxBound U mx k = none ∨ touchMaxBound U mx k = some (DP.touchMaxBound mx k) := by
  cases mx with
  | none => exact .inr rfl
  | some m =>
    unfold touchMaxBound DP.touchMaxBound
    rcases hU k with h | h <;> simp [h]

/-- **With overflow checks the machine does the same or panics.** -/
theorem checked_run {U : Usize} (hU : Checked U) (R : SetOfRules) : ∀ f,
    (∀ st n, SameOrPanic (parseRuleName U R f st n) (DP.parseRuleName R f st n)) ∧
    (∀ st e, SameOrPanic (parseExpr U R f st e) (DP.parseExpr R f st e)) ∧
    (∀ st es acc, SameOrPanic (parseAnd U R f st es acc) (DP.parseAnd R f st es acc)) ∧
    (∀ st es acc, SameOrPanic (parseOr U R f st es acc) (DP.parseOr R f st es acc)) ∧
    (∀ e mn mx st k acc, SameOrPanic (parseRepeat U R f e mn mx st k acc) (DP.parseRepeat R f e mn mx st k acc)) := by
  intro f
  induction f with
  | zero =>
    refine ⟨?_, ?_, ?_, ?_, ?_⟩ <;> intros <;> right
    · rw [parseRuleName, DP.parseRuleName]
    · rw [parseExpr, DP.parseExpr]
    · rw [parseAnd, DP.parseAnd]
    · rw [parseOr, DP.parseOr]
    · rw [parseRepeat, DP.parseRepeat]
  | succ f ih =>
    obtain ⟨ih1, ih2, ih3, ih4, ih5⟩ := ih
    refine ⟨?_, ?_, ?_, ?_, ?_⟩
    · intro st n
      rw [parseRuleName, DP.parseRuleName]
      cases R.get n with
      | none => exact .inr rfl
      | some e =>
        simp only
        rcases ih2 (if st.traceRules = true then st.pushRule (c!"r:" ++ n) else st) e with h | h <;> rw [h]
        · exact .inl rfl
        · right; cases DP.parseExpr R f _ e <;> rfl
    · intro st e
      cases e with
      | simple a =>
        rw [parseExpr, DP.parseExpr, parseAtomAsExpr, DP.parseAtomAsExpr]
        rcases atom_checked hU st a with h | h <;> rw [h]
        · exact .inl rfl
        · right; cases DP.parseAtom st a <;> rfl
      | and es => rw [parseExpr, DP.parseExpr]; exact ih3 _ _ _
      | or es => rw [parseExpr, DP.parseExpr]; exact ih4 _ _ _
      | not e =>
        rw [parseExpr, DP.parseExpr]
        rcases ih2 st e with h | h <;> rw [h]
        · exact .inl rfl
        · right; cases DP.parseExpr R f st e <;> rfl
      | rep e mn mx => rw [parseExpr, DP.parseExpr]; exact ih5 _ _ _ _ _ _
      | ruleName n =>
        rw [parseExpr, DP.parseExpr]
        rcases ih1 st n with h | h <;> rw [h]
        · exact .inl rfl
        · right; cases DP.parseRuleName R f st n <;> rfl
    · intro st es acc
      cases es with
      | nil => right; rw [parseAnd, DP.parseAnd]
      | cons e es =>
        rw [parseAnd, DP.parseAnd]
        rcases ih2 st e with h | h <;> rw [h]
        · exact .inl rfl
        · cases DP.parseExpr R f st e with
          | ok x => exact ih3 _ _ _
          | _ => exact .inr rfl
    · intro st es acc
      cases es with
      | nil => right; cases acc <;> rw [parseOr, DP.parseOr]
      | cons e es =>
        rw [parseOr, DP.parseOr]
        rcases ih2 st e with h | h <;> rw [h]
        · exact .inl rfl
        · cases DP.parseExpr R f st e with
          | err er =>
            simp only
            split
            · exact .inr rfl
            · exact ih4 _ _ _
          | _ => exact .inr rfl
    · intro e mn mx st k acc
      rw [parseRepeat, DP.parseRepeat]
      rcases ih2 st e with h | h <;> rw [h]
      · exact .inl rfl
      · cases DP.parseExpr R f st e with
        | panic => exact .inr rfl
        | diverge => exact .inr rfl
        | err er =>
          simp only
          rcases touch_checked hU mx k with h | h <;> rw [h]
          · exact .inl rfl
          · exact .inr rfl
        | ok x =>
          simp only
          rcases touch_checked hU mx k with h | h <;> rw [h]
          · exact .inl rfl
          · cases DP.touchMaxBound mx k with
            | true => exact .inr rfl
            | false =>
              simp only
              rcases hU k with h | h <;> rw [h]
              · exact .inl rfl
              · exact ih5 _ _ _ _ _ _

theorem checked_api {U : Usize} (hU : Checked U) (s : Str) (R : SetOfRules) (f b) :
    SameOrPanic (parseWithDebugF U f s R b) (DP.parseWithDebugF f s R b) := by
  unfold parseWithDebugF DP.parseWithDebugF parseMain
  cases b with
  | true =>
    simp only [if_true]
    rcases (checked_run hU R f).1 (Status.initDebug s true) c!"main" with h | h <;> rw [h]
    · exact .inl rfl
    · right; cases DP.parseRuleName R f (Status.initDebug s true) c!"main" <;> rfl
  | false =>
    simp only [Bool.false_eq_true, if_false]
    rcases (checked_run hU R f).1 (Status.init s) c!"main" with h | h <;> rw [h]
    · exact .inl rfl
    · right; cases DP.parseRuleName R f (Status.init s) c!"main" <;> rfl

end Machine

/-! ### The numbers of a rule set, computed -/

mutual
def maxima : Expr → List Nat
  | .simple _ => []
  | .and es => maximaAll es
  | .or es => maximaAll es
  | .not e => maxima e
  | .rep e _ (some m) => m :: maxima e
  | .rep e _ none => maxima e
  | .ruleName _ => []
def maximaAll : List Expr → List Nat
  | [] => []
  | e :: es => maxima e ++ maximaAll es
end

theorem mem_maximaAll {e m} : ∀ {es}, e ∈ es → m ∈ maxima e → m ∈ maximaAll es
  | x :: es, he, h => by
    rw [maximaAll, List.mem_append]
    rcases List.mem_cons.mp he with rfl | he
    · exact .inl h
    · exact .inr (mem_maximaAll he h)

theorem mem_maxima {e m} (h : Maximum e m) : m ∈ maxima e := by
  induction h with
  | here m => simp [maxima]
  | and he _ ih => exact mem_maximaAll he ih
  | or he _ ih => exact mem_maximaAll he ih
  | not _ ih => exact ih
  | rep _ ih =>
    rename_i mx _ _
    cases mx with
    | none => exact ih
    | some k => exact List.mem_cons_of_mem _ ih

theorem fitsIn_of_check {size : Nat} {R : SetOfRules}
    (h : (R.entries.all fun ne => (maxima ne.2).all (· < size)) = true) : FitsIn size R := by
  intro n e m hg hm
  obtain ⟨l1, l2, heq, _⟩ := List.lookup_eq_some_iff.mp hg
  have h1 := List.all_eq_true.mp h (n, e) (by rw [heq]; simp)
  simpa using List.all_eq_true.mp h1 m (mem_maxima hm)

theorem fitsIn_mono {a b R} (h : FitsIn a R) (hab : a ≤ b) : FitsIn b R :=
  fun n e m hg hm => Nat.lt_of_lt_of_le (h n e m hg hm) hab

end DP
