/-
C106: what parse does not look at does not matter.
-/
import Verif.Model.Looks
import Verif.Props.Calls
import Verif.Props.Readme
import Verif.Props.PegFront

namespace DP
open Spec

/-- an error without the rest of its line -/
def Error.blur (e : Error) : Error := { e with lineAfter := [] }

/-- the same answer, except for the rest of the line of an error -/
def Out.blur {α : Type} : Out Error α → Out Error α
  | .err e => .err e.blur
  | x => x

theorem takeBytes_local : ∀ (n : Nat) (t t' : Str), t.take n = t'.take n → takeBytes n t = takeBytes n t'
  | 0, _, _, _ => by simp [takeBytes]
  | n + 1, [], [], _ => rfl
  | n + 1, [], _ :: _, h => by simp at h
  | n + 1, _ :: _, [], h => by simp at h
  | n + 1, c :: t, d :: t', h => by
    simp only [List.take_succ_cons, List.cons.injEq] at h
    obtain ⟨rfl, h⟩ := h
    have hc := Char.utf8Size_pos c
    rw [takeBytes, takeBytes]
    split
    · rw [takeBytes_local (n + 1 - c.utf8Size) t t']
      have := congrArg (List.take (n + 1 - c.utf8Size)) h
      rw [List.take_take, List.take_take, Nat.min_eq_left (by omega)] at this
      exact this
    · rfl
termination_by n => n
decreasing_by have := Char.utf8Size_pos c; omega

theorem slice_local : ∀ (b a : Nat) (t t' : Str), t.take b = t'.take b → slice t a b = slice t' a b
  | b, 0, t, t', h => by
    unfold slice
    simp only [Nat.zero_le, if_true, dropBytes, Option.bind_some, Nat.sub_zero]
    exact takeBytes_local b t t' h
  | b, a + 1, [], [], _ => rfl
  | 0, a + 1, _, _, _ => by simp [slice]
  | b + 1, a + 1, [], _ :: _, h => by simp at h
  | b + 1, a + 1, _ :: _, [], h => by simp at h
  | b + 1, a + 1, c :: t, d :: t', h => by
    simp only [List.take_succ_cons, List.cons.injEq] at h
    obtain ⟨rfl, h⟩ := h
    have hc := Char.utf8Size_pos c
    unfold slice
    rw [dropBytes, dropBytes]
    split
    · rename_i hab
      split
      · rename_i hs
        have := slice_local (b + 1 - c.utf8Size) (a + 1 - c.utf8Size) t t' (by
          have := congrArg (List.take (b + 1 - c.utf8Size)) h
          rw [List.take_take, List.take_take, Nat.min_eq_left (by omega)] at this
          exact this)
        unfold slice at this
        rw [if_pos (by omega), if_pos (by omega)] at this
        have e : b + 1 - c.utf8Size - (a + 1 - c.utf8Size) = b + 1 - (a + 1) := by omega
        rw [e] at this
        exact this
      · rfl
    · rfl
termination_by b => b
decreasing_by have := Char.utf8Size_pos c; omega

/-- two statuses that agree on everything up to the character `k` -/
structure Agree (k : Nat) (st st' : Status) : Prop where
  pos : st'.pos = st.pos
  trace : st'.traceRules = st.traceRules
  walking : st'.walkingRules = st.walkingRules
  text : st'.text2parse.take k = st.text2parse.take k
  rest : st'.itParsing.take (k - st.pos.n) = st.itParsing.take (k - st.pos.n)
  le : st.pos.n ≤ k
  pot : st'.potentialError.map Error.blur = st.potentialError.map Error.blur

/-- two outcomes that agree -/
def OutAgree {α : Type} (k : Nat) : Out Error (Status × α) → Out Error (Status × α) → Prop
  | .ok x, .ok x' => Agree k x.1 x'.1 ∧ x.2 = x'.2
  | .err e, .err e' => e'.blur = e.blur
  | .panic, .panic => True
  | .diverge, .diverge => True
  | _, _ => False

theorem raise_agree {α : Type} {k st st'} (h : Agree k st st') (d : Descr) (p : Prio) :
    OutAgree (α := α) k (raise st d p) (raise st' d p) := by
  have hs : slice st'.text2parse st'.pos.startLine st'.pos.n = slice st.text2parse st.pos.startLine st.pos.n := by
    rw [h.pos]
    refine slice_local _ _ _ _ ?_
    have := congrArg (List.take st.pos.n) h.text
    rwa [List.take_take, List.take_take, Nat.min_eq_left h.le] at this
  unfold raise fromStatus
  rw [hs]
  cases slice st.text2parse st.pos.startLine st.pos.n with
  | none => trivial
  | some lb => simp [OutAgree, Error.blur, h.pos, h.walking]

theorem get_agree {k st st'} (h : Agree k st st') (hk : st.pos.n + 1 ≤ k) :
    (∃ st1 st1' c, getChar st = .ok (st1, c) ∧ getChar st' = .ok (st1', c) ∧ Agree k st1 st1' ∧ st.itParsing = c :: st1.itParsing ∧
      st1.pos.n = st.pos.n + 1) ∨ (st.itParsing = [] ∧ getChar st = .error st ∧ getChar st' = .error st') := by
  obtain ⟨m, hm⟩ : ∃ m, k - st.pos.n = m + 1 := ⟨k - st.pos.n - 1, by omega⟩
  have hr := h.rest
  rw [hm] at hr
  cases hs : st.itParsing with
  | nil =>
    cases hs' : st'.itParsing with
    | nil => exact .inr ⟨rfl, by rw [getChar, hs], by rw [getChar, hs']⟩
    | cons c r => rw [hs, hs'] at hr; simp at hr
  | cons c r =>
    cases hs' : st'.itParsing with
    | nil => rw [hs, hs'] at hr; simp at hr
    | cons c' r' =>
      rw [hs, hs'] at hr
      simp only [List.take_succ_cons, List.cons.injEq] at hr
      obtain ⟨rfl, hr⟩ := hr
      left
      rw [getChar, getChar, hs, hs']
      have hn : ∀ p : Pos, (if c' = '\n' then ({ n := p.n + 1, col := 0, row := p.row + 1, startLine := p.n + 1 } : Pos)
          else if c' = '\r' then { p with n := p.n + 1, col := 0 } else { p with n := p.n + 1, col := p.col + 1 }).n = p.n + 1 := by
        intro p
        split
        · rfl
        · split <;> rfl
      refine ⟨_, _, c', rfl, rfl, ⟨?_, h.trace, h.walking, h.text, ?_, ?_, h.pot⟩, rfl, hn _⟩
      · simp only [h.pos]
      · simp only [hn]
        have e : k - (st.pos.n + 1) = m := by omega
        rw [e]
        exact hr
      · simp only [hn]
        exact hk

theorem literal_agree (lit : Str) : ∀ (l : Str) {k st st'}, Agree k st st' → st.pos.n + literalLooks l st.itParsing ≤ k →
    (∃ st1 st1', parseLiteralLoop lit st l = .ok st1 ∧ parseLiteralLoop lit st' l = .ok st1' ∧ Agree k st1 st1') ∨
    (∃ e e', parseLiteralLoop lit st l = .err e ∧ parseLiteralLoop lit st' l = .err e' ∧ e'.blur = e.blur) ∨
    (parseLiteralLoop lit st l = .panic ∧ parseLiteralLoop lit st' l = .panic)
  | [], k, st, st', h, _ => .inl ⟨st, st', rfl, rfl, h⟩
  | c :: l, k, st, st', h, hk => by
    have failed : ∀ {st1 st1' : Status}, Agree k st1 st1' →
        (∃ e e', (raise st1 (.literal lit) .normal : Out Error Status) = .err e ∧ (raise st1' (.literal lit) .normal : Out Error Status) = .err e' ∧ e'.blur = e.blur) ∨
        ((raise st1 (.literal lit) .normal : Out Error Status) = .panic ∧ (raise st1' (.literal lit) .normal : Out Error Status) = .panic) := by
      intro st1 st1' h1
      have hs : slice st1'.text2parse st1'.pos.startLine st1'.pos.n = slice st1.text2parse st1.pos.startLine st1.pos.n := by
        rw [h1.pos]
        refine slice_local _ _ _ _ ?_
        have := congrArg (List.take st1.pos.n) h1.text
        rwa [List.take_take, List.take_take, Nat.min_eq_left h1.le] at this
      unfold raise fromStatus
      rw [hs]
      cases slice st1.text2parse st1.pos.startLine st1.pos.n with
      | none => exact .inr ⟨rfl, rfl⟩
      | some lb => exact .inl ⟨_, _, rfl, rfl, by simp [Error.blur, h1.pos, h1.walking]⟩
    have hk1 : st.pos.n + 1 ≤ k := by
      cases hs : st.itParsing with
      | nil => rw [hs, literalLooks] at hk; exact hk
      | cons d r =>
        rw [hs, literalLooks] at hk
        split at hk <;> omega
    rw [parseLiteralLoop, parseLiteralLoop, parseChar, parseChar]
    rcases get_agree h hk1 with ⟨st1, st1', d, h1, h2, ha, hr, hn⟩ | ⟨_, h1, h2⟩
    · simp only [h1, h2]
      by_cases hc : c = d
      · simp only [hc, if_true]
        refine literal_agree lit l ha ?_
        rw [hr, literalLooks, if_pos hc] at hk
        omega
      · simp only [hc, if_false]
        exact .inr (failed ha)
    · simp only [h1, h2]
      exact .inr (failed h)

theorem atom_agree {k st st'} (h : Agree k st st') (a : Atom) (hk : st.pos.n + atomLooks a st.itParsing ≤ k) :
    OutAgree k (parseAtom st a) (parseAtom st' a) := by
  cases a with
  | literal l =>
    rw [parseAtom, parseAtom, parseLiteral, parseLiteral]
    rcases literal_agree l l h hk with ⟨st1, st1', h1, h2, ha⟩ | ⟨e, e', h1, h2, he⟩ | ⟨h1, h2⟩
    · rw [h1, h2]; exact ⟨ha, rfl⟩
    · rw [h1, h2]; exact he
    · rw [h1, h2]; trivial
  | error s => exact raise_agree h _ _
  | mtch cs rs =>
    rw [parseAtom, parseAtom, parseMatch, parseMatch]
    rcases get_agree h hk with ⟨st1, st1', d, h1, h2, ha, _, _⟩ | ⟨_, h1, h2⟩
    · simp only [h1, h2]
      split
      · exact ⟨ha, rfl⟩
      · exact raise_agree ha _ _
    · simp only [h1, h2]
      exact raise_agree h _ _
  | dot =>
    rw [parseAtom, parseAtom, parseDot, parseDot]
    rcases get_agree h hk with ⟨st1, st1', d, h1, h2, ha, _, _⟩ | ⟨_, h1, h2⟩
    · simp only [h1, h2]; exact ⟨ha, rfl⟩
    · simp only [h1, h2]; exact raise_agree h _ _
  | eof =>
    rw [parseAtom, parseAtom, parseEof, parseEof]
    rcases get_agree h hk with ⟨st1, st1', d, h1, h2, ha, _, _⟩ | ⟨_, h1, h2⟩
    · simp only [h1, h2]; exact raise_agree ha _ _
    · simp only [h1, h2]; exact ⟨h, rfl⟩

/-- a call, without the text -/
def callTag (c : Expr × Status) : Expr × Pos × Nat := (c.1, c.2.pos, callLooks c)

theorem literalLooks_local : ∀ (l r r' : Str) (m : Nat), r'.take m = r.take m → literalLooks l r ≤ m → literalLooks l r' = literalLooks l r
  | [], _, _, _, _, _ => by simp [literalLooks]
  | c :: l, [], r', m, h, hm => by
    rw [literalLooks] at hm ⊢
    obtain ⟨m, rfl⟩ := Nat.exists_eq_add_of_le' hm
    cases r' with
    | nil => rfl
    | cons d r' => simp at h
  | c :: l, d :: r, r', m, h, hm => by
    have h1 : 1 ≤ m := by
      rw [literalLooks] at hm
      split at hm <;> omega
    obtain ⟨m, rfl⟩ := Nat.exists_eq_add_of_le' h1
    cases r' with
    | nil => simp at h
    | cons d' r' =>
      simp only [List.take_succ_cons, List.cons.injEq] at h
      obtain ⟨rfl, h⟩ := h
      rw [literalLooks] at hm ⊢
      rw [literalLooks]
      split
      · rename_i hc
        rw [if_pos hc] at hm
        rw [literalLooks_local l r r' m h (by omega)]
      · rfl

theorem atomLooks_agree {k st st'} (h : Agree k st st') (a : Atom) (hk : st.pos.n + atomLooks a st.itParsing ≤ k) :
    atomLooks a st'.itParsing = atomLooks a st.itParsing := by
  cases a with
  | literal l => exact literalLooks_local l _ _ _ h.rest (by rw [atomLooks] at hk; omega)
  | _ => rfl

theorem agree_push {k st st'} (h : Agree k st st') (name : Str) :
    Agree k (if st.traceRules then st.pushRule name else st) (if st'.traceRules then st'.pushRule name else st') := by
  rw [h.trace]
  split
  · exact ⟨h.pos, h.trace, by simp [Status.pushRule, h.walking], h.text, h.rest, h.le, h.pot⟩
  · exact h

theorem deepErr_blur {o o' : Option Error} {e e' : Error} (ho : o'.map Error.blur = o.map Error.blur) (he : e'.blur = e.blur) :
    (deepErr o' e').map Error.blur = (deepErr o e).map Error.blur := by
  have hf : ∀ {a b : Error}, a.blur = b.blur → a.priority = b.priority ∧ a.pos = b.pos := by
    intro a b h
    have h1 := congrArg Error.priority h
    have h2 := congrArg Error.pos h
    exact ⟨h1, h2⟩
  cases o with
  | none =>
    cases o' with
    | none => simpa [deepErr] using he
    | some x => simp at ho
  | some x =>
    cases o' with
    | none => simp at ho
    | some x' =>
      simp only [Option.map_some, Option.some.injEq] at ho
      unfold deepErr
      simp only [(hf ho).1, (hf ho).2, (hf he).1, (hf he).2]
      split <;> simp [ho, he]

theorem run_agree (R : SetOfRules) (k : Nat) : ∀ f,
    (∀ st st' n, Agree k st st' → (∀ c ∈ callsRuleName R f st n, callLooks c ≤ k) → OutAgree k (parseRuleName R f st n) (parseRuleName R f st' n) ∧
      (callsRuleName R f st' n).map callTag = (callsRuleName R f st n).map callTag) ∧
    (∀ st st' e, Agree k st st' → (∀ c ∈ callsExpr R f st e, callLooks c ≤ k) → OutAgree k (parseExpr R f st e) (parseExpr R f st' e) ∧
      (callsExpr R f st' e).map callTag = (callsExpr R f st e).map callTag) ∧
    (∀ st st' es acc, Agree k st st' → (∀ c ∈ callsAnd R f st es, callLooks c ≤ k) → OutAgree k (parseAnd R f st es acc) (parseAnd R f st' es acc) ∧
      (callsAnd R f st' es).map callTag = (callsAnd R f st es).map callTag) ∧
    (∀ st st' es o o', Agree k st st' → (∀ c ∈ callsOr R f st es, callLooks c ≤ k) → o'.map Error.blur = o.map Error.blur →
      OutAgree k (parseOr R f st es o) (parseOr R f st' es o') ∧ (callsOr R f st' es).map callTag = (callsOr R f st es).map callTag) ∧
    (∀ e mn mx st st' j acc, Agree k st st' → (∀ c ∈ callsRepeat R f e mn mx st j, callLooks c ≤ k) →
      OutAgree k (parseRepeat R f e mn mx st j acc) (parseRepeat R f e mn mx st' j acc) ∧
      (callsRepeat R f e mn mx st' j).map callTag = (callsRepeat R f e mn mx st j).map callTag) := by
  intro f
  induction f with
  | zero =>
    refine ⟨?_, ?_, ?_, ?_, ?_⟩
    · intros; exact ⟨trivial, rfl⟩
    · intros; exact ⟨trivial, rfl⟩
    · intros; exact ⟨trivial, rfl⟩
    · intros; exact ⟨trivial, rfl⟩
    · intros; exact ⟨trivial, rfl⟩
  | succ f ih =>
    obtain ⟨ih1, ih2, ih3, ih4, ih5⟩ := ih
    refine ⟨?_, ?_, ?_, ?_, ?_⟩
    · intro st st' n h hc
      rw [parseRuleName, parseRuleName, callsRuleName, callsRuleName]
      rw [callsRuleName] at hc
      have h := agree_push h (c!"r:" ++ n)
      revert hc h
      generalize (if st.traceRules then st.pushRule (c!"r:" ++ n) else st) = st1
      generalize (if st'.traceRules then st'.pushRule (c!"r:" ++ n) else st') = st1'
      intro hc h
      cases hg : R.get n with
      | none => exact ⟨raise_agree h _ _, rfl⟩
      | some e =>
        simp only [hg] at hc
        obtain ⟨i1, i2⟩ := ih2 st1 st1' e h hc
        refine ⟨?_, i2⟩
        simp only
        cases h1 : parseExpr R f st1 e <;> cases h2 : parseExpr R f st1' e <;> simp only [h1, h2, OutAgree] at i1 <;> try exact i1
        exact ⟨i1.1, by rw [i1.2]⟩
    · intro st st' e h hc
      cases e with
      | simple a =>
        rw [callsExpr] at hc ⊢
        rw [callsExpr, parseExpr, parseExpr, parseAtomAsExpr, parseAtomAsExpr]
        have i1 := atom_agree h a (hc (.simple a, st) (by simp))
        refine ⟨?_, by simp [callTag, callLooks, h.pos, atomLooks_agree h a (hc (.simple a, st) (by simp))]⟩
        cases h1 : parseAtom st a <;> cases h2 : parseAtom st' a <;> simp only [h1, h2, OutAgree] at i1 <;> try exact i1
        exact ⟨i1.1, by rw [i1.2]⟩
      | and es =>
        rw [callsExpr] at hc ⊢
        rw [callsExpr, parseExpr, parseExpr]
        obtain ⟨i1, i2⟩ := ih3 st st' es [] h fun c hm => hc c (by simp [hm])
        exact ⟨i1, by simp [callTag, callLooks, h.pos, i2]⟩
      | or es =>
        rw [callsExpr] at hc ⊢
        rw [callsExpr, parseExpr, parseExpr]
        obtain ⟨i1, i2⟩ := ih4 st st' es none none h (fun c hm => hc c (by simp [hm])) rfl
        exact ⟨i1, by simp [callTag, callLooks, h.pos, i2]⟩
      | not e =>
        rw [callsExpr] at hc ⊢
        rw [callsExpr, parseExpr, parseExpr]
        obtain ⟨i1, i2⟩ := ih2 st st' e h fun c hm => hc c (by simp [hm])
        refine ⟨?_, by simp [callTag, callLooks, h.pos, i2]⟩
        cases h1 : parseExpr R f st e <;> cases h2 : parseExpr R f st' e <;> simp only [h1, h2, OutAgree] at i1 <;> dsimp only
        · exact raise_agree h _ _
        · exact ⟨h, rfl⟩
        · trivial
        · trivial
      | rep e mn mx =>
        rw [callsExpr] at hc ⊢
        rw [callsExpr, parseExpr, parseExpr]
        obtain ⟨i1, i2⟩ := ih5 e mn mx st st' 0 [] h fun c hm => hc c (by simp [hm])
        exact ⟨i1, by simp [callTag, callLooks, h.pos, i2]⟩
      | ruleName n =>
        rw [callsExpr] at hc ⊢
        rw [callsExpr, parseExpr, parseExpr]
        obtain ⟨i1, i2⟩ := ih1 st st' n h fun c hm => hc c (by simp [hm])
        refine ⟨?_, by simp [callTag, callLooks, h.pos, i2]⟩
        cases h1 : parseRuleName R f st n <;> cases h2 : parseRuleName R f st' n <;> simp only [h1, h2, OutAgree] at i1 <;> try exact i1
        exact ⟨i1.1, by rw [i1.2]⟩
    · intro st st' es acc h hc
      cases es with
      | nil => exact ⟨⟨h, rfl⟩, rfl⟩
      | cons e es =>
        rw [callsAnd] at hc ⊢
        rw [callsAnd, parseAnd, parseAnd]
        obtain ⟨i1, i2⟩ := ih2 st st' e h fun c hm => hc c (by simp [hm])
        cases h1 : parseExpr R f st e <;> cases h2 : parseExpr R f st' e <;> simp only [h1, h2, OutAgree] at i1 <;> dsimp only
        · rename_i x x'
          obtain ⟨a, v⟩ := x
          obtain ⟨a', v'⟩ := x'
          obtain ⟨j1, rfl⟩ := i1
          obtain ⟨j2, j3⟩ := ih3 a a' es (acc ++ v) j1 fun c hm => hc c (by rw [h1]; simp [hm])
          exact ⟨j2, by rw [List.map_append, List.map_append, i2, j3]⟩
        · exact ⟨i1, by simpa using i2⟩
        · exact ⟨trivial, by simpa using i2⟩
        · exact ⟨trivial, by simpa using i2⟩
    · intro st st' es o o' h hc ho
      cases es with
      | nil =>
        refine ⟨?_, rfl⟩
        cases o with
        | none =>
          cases o' with
          | none => exact raise_agree h _ _
          | some x => simp at ho
        | some x =>
          cases o' with
          | none => simp at ho
          | some x' => exact Option.some.inj ho
      | cons e es =>
        rw [callsOr] at hc ⊢
        rw [callsOr, parseOr, parseOr]
        obtain ⟨i1, i2⟩ := ih2 st st' e h fun c hm => hc c (by simp [hm])
        cases h1 : parseExpr R f st e <;> cases h2 : parseExpr R f st' e <;> simp only [h1, h2, OutAgree] at i1 <;> dsimp only
        · exact ⟨i1, by simpa using i2⟩
        · rename_i e e'
          have hp : e'.priority = e.priority := by have := congrArg Error.priority i1; exact this
          rw [hp]
          by_cases hn : e.priority = .critical
          · simp only [hn, if_true]
            exact ⟨i1, by simpa using i2⟩
          · simp only [hn, if_false]
            obtain ⟨j2, j3⟩ := ih4 st st' es (deepErr o e) (deepErr o' e') h (fun c hm => hc c (by rw [h1]; simp [hm, hn])) (deepErr_blur ho i1)
            exact ⟨j2, by rw [List.map_append, List.map_append, i2, j3]⟩
        · exact ⟨trivial, by simpa using i2⟩
        · exact ⟨trivial, by simpa using i2⟩
    · intro e mn mx st st' j acc h hc
      rw [callsRepeat] at hc ⊢
      rw [callsRepeat, parseRepeat, parseRepeat]
      obtain ⟨i1, i2⟩ := ih2 st st' e h fun c hm => hc c (by simp [hm])
      cases h1 : parseExpr R f st e <;> cases h2 : parseExpr R f st' e <;> simp only [h1, h2, OutAgree] at i1 <;> dsimp only
      · rename_i x x'
        obtain ⟨a, v⟩ := x
        obtain ⟨a', v'⟩ := x'
        obtain ⟨j1, rfl⟩ := i1
        dsimp only
        by_cases hn : touchMaxBound mx j = true
        · simp only [hn, if_true]
          exact ⟨⟨j1, rfl⟩, by simpa using i2⟩
        · simp only [hn, Bool.false_eq_true, if_false]
          obtain ⟨j2, j3⟩ := ih5 e mn mx a a' (j + 1) (acc ++ v) j1 fun c hm => hc c (by rw [h1]; simp [hm, hn])
          exact ⟨j2, by rw [List.map_append, List.map_append, i2, j3]⟩
      · rename_i e e'
        have hp : e'.priority = e.priority := by have := congrArg Error.priority i1; exact this
        rw [hp]
        refine ⟨?_, by simpa using i2⟩
        split
        · split
          · exact i1
          · exact ⟨⟨h.pos, h.trace, h.walking, h.text, h.rest, h.le, by simp [Status.setPotentialError, i1]⟩, rfl⟩
        · exact i1
      · exact ⟨trivial, by simpa using i2⟩
      · exact ⟨trivial, by simpa using i2⟩

theorem agree_init {s s' : Str} {k : Nat} (h : s'.take k = s.take k) : Agree k (.init s) (.init s') :=
  ⟨rfl, rfl, rfl, h, h, Nat.zero_le _, rfl⟩

theorem byteLen_ge : ∀ s : Str, s.length ≤ byteLen s
  | [] => Nat.le_refl _
  | c :: s => by
    have := Char.utf8Size_pos c
    have := byteLen_ge s
    rw [byteLen, List.length_cons]
    omega

theorem take_eq_of_short {s s' : Str} {k : Nat} (hs : s'.take k = s.take k) (hk : s.length < k) : s' = s := by
  have h1 : s.take k = s := List.take_of_length_le (by omega)
  rw [h1] at hs
  have h2 := congrArg List.length hs
  rw [List.length_take] at h2
  rw [← hs, List.take_of_length_le (by omega)]

/-- **C106**: if `parse` has looked at the first `k` characters of a text at most, it gives the same answer for every text that
begins with the same `k` characters (or is the same text, if it is shorter), except for the quoted rest of the line; and it has
looked at no more there. -/
theorem C106_same {s s' : Str} {R : SetOfRules} {k : Nat} (h : Sees s R k) (hs : s'.take k = s.take k) :
    (parse s' R).blur = (parse s R).blur ∧ Sees s' R k := by
  obtain ⟨f, hd, hc, hok⟩ := h
  obtain ⟨h1, h2⟩ := (run_agree R k f).1 _ _ c!"main" (agree_init hs) hc
  have hc' : ∀ c ∈ callsRuleName R f (.init s') c!"main", callLooks c ≤ k := by
    intro c hm
    have : callTag c ∈ (callsRuleName R f (.init s) c!"main").map callTag := by rw [← h2]; exact List.mem_map_of_mem hm
    obtain ⟨c0, hm0, he⟩ := List.mem_map.1 this
    have := hc c0 hm0
    have he : callLooks c0 = callLooks c := congrArg (fun x : Expr × Pos × Nat => x.2.2) he
    omega
  have hd' : parseMain R f (.init s') ≠ .diverge := by
    unfold parseMain at hd ⊢
    intro hx
    rw [hx] at h1
    cases h3 : parseRuleName R f (.init s) c!"main" with
    | diverge => exact hd h3
    | _ => rw [h3] at h1; exact h1
  have hok' : ∀ st t, parseMain R f (.init s') = .ok (st, t) → st.pos.n + 1 ≤ k := by
    intro st t hx
    unfold parseMain at hx hok
    rw [hx] at h1
    cases h3 : parseRuleName R f (.init s) c!"main" with
    | ok x =>
      rw [h3] at h1
      have := hok x.1 x.2 h3
      have hp := h1.1.pos
      simp only at hp
      rw [hp]
      exact this
    | _ => rw [h3] at h1; exact absurd h1 id
  refine ⟨?_, f, hd', hc', hok'⟩
  have e1 : parse s R = parseWithDebugF f s R false := parse_of_fuel rfl (by
    intro hx
    apply hd
    unfold parseWithDebugF at hx
    simp only [Bool.false_eq_true, if_false] at hx
    cases h3 : parseMain R f (.init s) with
    | diverge => rfl
    | ok x =>
      rw [h3] at hx
      dsimp only at hx
      split at hx
      · cases hx
      · split at hx
        · cases hx
        · unfold raise at hx
          split at hx <;> cases hx
    | err e => rw [h3] at hx; cases hx
    | panic => rw [h3] at hx; cases hx)
  have e2 : parse s' R = parseWithDebugF f s' R false := parse_of_fuel rfl (by
    intro hx
    apply hd'
    unfold parseWithDebugF at hx
    simp only [Bool.false_eq_true, if_false] at hx
    cases h3 : parseMain R f (.init s') with
    | diverge => rfl
    | ok x =>
      rw [h3] at hx
      dsimp only at hx
      split at hx
      · cases hx
      · split at hx
        · cases hx
        · unfold raise at hx
          split at hx <;> cases hx
    | err e => rw [h3] at hx; cases hx
    | panic => rw [h3] at hx; cases hx)
  rw [e1, e2]
  unfold parseWithDebugF
  simp only [Bool.false_eq_true, if_false]
  unfold parseMain at hok ⊢
  cases h3 : parseRuleName R f (.init s) c!"main" <;> cases h4 : parseRuleName R f (.init s') c!"main" <;> simp only [h3, h4, OutAgree] at h1 <;> dsimp only
  · rename_i x x'
    obtain ⟨st, t⟩ := x
    obtain ⟨st', t'⟩ := x'
    obtain ⟨ha, rfl⟩ := h1
    dsimp only at ha ⊢
    have hk := hok st t h3
    by_cases hq : s' = s
    · subst hq
      rw [h3] at h4
      cases h4
      rfl
    · have n1 : ¬ st.pos.n = byteLen s := by
        intro hx
        have := byteLen_ge s
        exact hq (take_eq_of_short hs (by omega))
      have n2 : ¬ st'.pos.n = byteLen s' := by
        intro hx
        have := byteLen_ge s'
        have hp := ha.pos
        rw [hp] at hx
        exact hq (take_eq_of_short hs.symm (by omega)).symm
      simp only [n1, n2, if_false]
      have hp := ha.pot
      cases h5 : st.potentialError <;> cases h6 : st'.potentialError <;> rw [h5, h6] at hp <;> simp only [Option.map_none, Option.map_some, Option.some.injEq, reduceCtorEq] at hp
      · have hr := raise_agree (α := Node) ha .notConsumed .normal
        dsimp only
        unfold raise at hr ⊢
        cases h7 : fromStatus st .notConsumed .normal <;> cases h8 : fromStatus st' .notConsumed .normal <;> rw [h7, h8] at hr <;> simp only [OutAgree] at hr <;> dsimp only
        rw [Out.blur, Out.blur, hr]
      · dsimp only
        rw [Out.blur, Out.blur, hp]
  · rw [Out.blur, Out.blur, h1]

/-- **C106**: so an error is the error of every text that begins with the same `k` characters: at the same place, with the same
description. -/
theorem C106_error {s s' : Str} {R : SetOfRules} {k : Nat} {e : Error} (h : Sees s R k) (hs : s'.take k = s.take k) (he : parse s R = .err e) :
    ∃ e', parse s' R = .err e' ∧ e'.pos = e.pos ∧ e'.descr = e.descr ∧ e'.lineBefore = e.lineBefore ∧ e'.parsingRules = e.parsingRules ∧
      e'.priority = e.priority := by
  have := (C106_same h hs).1
  rw [he] at this
  cases hp : parse s' R with
  | err e' =>
    rw [hp] at this
    have h1 : e'.blur = e.blur := by
      rw [Out.blur, Out.blur] at this
      exact Out.err.inj this
    have g1 := congrArg Error.pos h1
    have g2 := congrArg Error.descr h1
    have g3 := congrArg Error.lineBefore h1
    have g4 := congrArg Error.parsingRules h1
    have g5 := congrArg Error.priority h1
    exact ⟨e', rfl, g1, g2, g3, g4, g5⟩
  | ok t => rw [hp] at this; cases this
  | panic => rw [hp] at this; cases this
  | diverge => rw [hp] at this; cases this

/-- **C106**: a text is accepted only after its end has been seen. -/
theorem C106_accepted {s : Str} {R : SetOfRules} {k : Nat} {t : Node} (h : Sees s R k) (ht : parse s R = .ok t) : s.length < k := by
  by_contra hk
  have h1 := (C106_same (s' := s.take k ++ [Char.ofNat 0xe9]) h (by
    rw [List.take_append, List.take_take, Nat.min_self, List.length_take, Nat.min_eq_left (by omega), Nat.sub_self, List.take_zero, List.append_nil])).1
  rw [ht] at h1
  cases hp : parse (s.take k ++ [Char.ofNat 0xe9]) R with
  | ok t' =>
    have := ((parse_iff _ _ _).1 hp).1 (Char.ofNat 0xe9) (by simp)
    exact absurd this (by decide)
  | err e => rw [hp] at h1; cases h1
  | panic => rw [hp] at h1; cases h1
  | diverge => rw [hp] at h1; cases h1

theorem literalLooks_le : ∀ l r : Str, literalLooks l r ≤ r.length + 1
  | [], _ => by simp [literalLooks]
  | _ :: _, [] => by simp [literalLooks]
  | c :: l, d :: r => by
    have := literalLooks_le l r
    rw [literalLooks]
    split
    · simp; omega
    · simp

/-- **C106**: `parse` never looks further than the end. -/
theorem C106_enough {s : Str} {R : SetOfRules} (h : parse s R ≠ .diverge) : Sees s R (s.length + 1) := by
  obtain ⟨l, f, hd, hl⟩ := (C102_exists s R).1 h
  refine ⟨f, hd, ?_, ?_⟩
  · rintro ⟨e, st⟩ hm
    obtain ⟨_, h1, h2⟩ := C102_given ⟨f, hd, rfl⟩ hm
    cases e with
    | simple a =>
      rw [callLooks]
      have h3 : atomLooks a st.itParsing ≤ st.itParsing.length + 1 := by
        cases a with
        | literal l => exact literalLooks_le _ _
        | error => simp [atomLooks]
        | _ => simp [atomLooks]
      rw [h2, List.length_drop] at h3
      rw [h2]
      omega
    | _ => simp [callLooks]
  · intro st t ht
    have := (preserve (preserved_unlisted R s) (fun _ _ _ _ _ => trivial) f).1 (.init s) c!"main" (unlisted_init s)
    unfold parseMain at ht
    rw [ht] at this
    obtain ⟨pre, hp, hc⟩ := (this trivial : Unlisted s st).at_
    rw [hc.n, hp, List.length_append]
    omega

/-- **C106**: the same for `rules_from_peg`: what comes behind what it looked at does not change a syntax error. -/
theorem C106_peg {s s' : Str} {k : Nat} {e : Error} (h : Sees s PegRules.parsePeg k) (hs : s'.take k = s.take k)
    (he : rulesFromPeg s = .err (.parser e)) :
    ∃ e', rulesFromPeg s' = .err (.parser e') ∧ e'.pos = e.pos ∧ e'.descr = e.descr ∧ e'.lineBefore = e.lineBefore ∧
      e'.parsingRules = e.parsingRules ∧ e'.priority = e.priority := by
  obtain ⟨e', h1, h2⟩ := C106_error h hs ((C39_syntax_errors s e).1 he)
  exact ⟨e', (C39_syntax_errors s' e').2 h1, h2⟩

/-! ### It has to look there -/

/-- the one rule `main`, a literal -/
def exLit (l : Str) : SetOfRules := ⟨[(c!"main", .simple (.literal l))]⟩

theorem literalLooks_prefix : ∀ (l r : Str) (k : Nat), k < literalLooks l r → l.take k = r.take k
  | [], _, _, h => by simp [literalLooks] at h
  | _ :: _, [], k, h => by
    rw [literalLooks] at h
    have : k = 0 := by omega
    subst this
    simp
  | c :: l, d :: r, 0, _ => by simp
  | c :: l, d :: r, k + 1, h => by
    rw [literalLooks] at h
    split at h
    · rename_i hc
      rw [hc, List.take_succ_cons, List.take_succ_cons, literalLooks_prefix l r k (by omega)]
    · omega

/-- **C106**: a literal looks at no character too many: if `k` characters are not all that `parse` has looked at, some text that begins
with the same `k` characters is accepted. -/
theorem C106_needed {l s : Str} (hl : Ascii l) {k : Nat} (hk : ¬ Sees s (exLit l) k) :
    ∃ s' t, s'.take k = s.take k ∧ parse s' (exLit l) = .ok t := by
  refine ⟨l, .rule c!"main" [.val l], ?_, (parse_iff _ _ _).2 ⟨hl, ?_⟩⟩
  · by_contra hne
    apply hk
    have hpre : literalLooks l s ≤ k := Nat.le_of_not_lt fun h => hne (literalLooks_prefix l s k h)
    have hg : (exLit l).get c!"main" = some (.simple (.literal l)) := rfl
    refine ⟨2, ?_, ?_, ?_⟩
    · have hs := literalLoop_sound l l (.init s)
      rw [parseMain, parseRuleName, hg]
      simp only [Status.init, Bool.false_eq_true, if_false, parseExpr, parseAtomAsExpr, parseAtom, parseLiteral]
      cases hx : parseLiteralLoop l (Status.init s) l with
      | diverge => rw [hx] at hs; exact absurd hs id
      | ok st => simp only [Status.init] at hx; rw [hx]; simp
      | err e => simp only [Status.init] at hx; rw [hx]; simp
      | panic => simp only [Status.init] at hx; rw [hx]; simp
    · intro c hm
      rw [callsRuleName, hg] at hm
      simp only [Status.init, Bool.false_eq_true, if_false, callsExpr, List.mem_singleton] at hm
      subst hm
      rw [callLooks]
      simpa [atomLooks, Pos.init] using hpre
    · intro st t ht
      have hu := (preserve (preserved_unlisted (exLit l) s) (fun _ _ _ _ _ => trivial) 2).1 (.init s) c!"main" (unlisted_init s)
      have ht' := ht
      unfold parseMain at ht
      rw [ht] at hu
      obtain ⟨pre, hp, hc⟩ := (hu trivial : Unlisted s st).at_
      have hs := literalLoop_sound l l (.init s)
      rw [parseMain, parseRuleName, hg] at ht'
      simp only [Status.init, Bool.false_eq_true, if_false, parseExpr, parseAtomAsExpr, parseAtom, parseLiteral] at ht' hs
      revert ht' hs
      cases parseLiteralLoop l { text2parse := s, itParsing := s, pos := Pos.init, potentialError := none, traceRules := false, walkingRules := [] } l with
      | ok st1 =>
        intro hs ht'
        simp only [Out.ok.injEq, Prod.mk.injEq] at ht' hs
        obtain ⟨rfl, _⟩ := ht'
        have hl' : pre = l := List.append_cancel_right (hp.symm.trans hs)
        rw [hc.n, hl']
        refine Nat.lt_of_not_le fun hle => hne ?_
        rw [hs, List.take_append_of_le_length hle]
      | _ => intro _ ht'; simp at ht'
  · have := Peg.lit_ok (G := denotes (exLit l)) l []
    rw [List.append_nil] at this
    exact .call_ok rfl this

/-- **C106**: for a text that is accepted the count is exact, whatever the rules are. -/
theorem C106_accepted_exact {s : Str} {R : SetOfRules} {k : Nat} {t : Node} (ht : parse s R = .ok t) :
    Sees s R k ↔ s.length < k := by
  refine ⟨fun h => C106_accepted h ht, fun hk => ?_⟩
  obtain ⟨f, hd, hc, hok⟩ := C106_enough (s := s) (R := R) (by rw [ht]; simp)
  exact ⟨f, hd, fun c hm => Nat.le_trans (hc c hm) hk, fun st t h => Nat.le_trans (hok st t h) hk⟩

/-- the one rule `main`, an atom -/
def exAtom (a : Atom) : SetOfRules := ⟨[(c!"main", .simple a)]⟩

theorem parse_exAtom (a : Atom) (s : Str) (hd : parseAtom (.init s) a ≠ .diverge) :
    parse s (exAtom a) = match parseAtom (.init s) a with
      | .ok (st, n) => if st.pos.n = byteLen s then .ok (.rule c!"main" [n]) else
          match st.potentialError with
          | some e => .err e
          | none => raise st .notConsumed .normal
      | .err e => .err e
      | .panic => .panic
      | .diverge => .diverge := by
  refine parse_of_fuel (f := 2) ?_ ?_
  · have hg : (exAtom a).get c!"main" = some (.simple a) := rfl
    rw [parseWithDebugF, if_neg (by simp), parseMain, parseRuleName, hg]
    simp only [Status.init, Bool.false_eq_true, if_false, parseExpr, parseAtomAsExpr]
    generalize parseAtom _ a = x
    rcases x with ⟨st, n⟩ | e | _ | _ <;> rfl
  · revert hd
    generalize parseAtom _ a = x
    rcases x with ⟨st, n⟩ | e | _ | _
    · intro _
      dsimp only
      split
      · simp
      · split
        · simp
        · unfold raise; split <;> simp
    · simp
    · simp
    · simp

theorem sees_exAtom {a : Atom} {s : Str} {k : Nat} (hd : parseAtom (.init s) a ≠ .diverge) (h1 : atomLooks a s ≤ k)
    (h2 : ∀ st n, parseAtom (.init s) a = .ok (st, n) → st.pos.n + 1 ≤ k) : Sees s (exAtom a) k := by
  have hg : (exAtom a).get c!"main" = some (.simple a) := rfl
  refine ⟨2, ?_, ?_, ?_⟩
  · rw [parseMain, parseRuleName, hg]
    simp only [Status.init, Bool.false_eq_true, if_false, parseExpr, parseAtomAsExpr]
    simp only [Status.init] at hd
    revert hd
    generalize parseAtom _ a = x
    rcases x with ⟨st, n⟩ | e | _ | _ <;> simp
  · intro c hm
    rw [callsRuleName, hg] at hm
    simp only [Status.init, Bool.false_eq_true, if_false, callsExpr, List.mem_singleton] at hm
    subst hm
    rw [callLooks]
    simpa [Pos.init] using h1
  · intro st t ht
    rw [parseMain, parseRuleName, hg] at ht
    simp only [Status.init, Bool.false_eq_true, if_false, parseExpr, parseAtomAsExpr] at ht
    simp only [Status.init] at h2
    revert ht h2
    generalize parseAtom _ a = x
    rcases x with ⟨st', n⟩ | e | _ | _
    · intro h2 ht
      simp only [Out.ok.injEq, Prod.mk.injEq] at ht
      obtain ⟨rfl, _⟩ := ht
      exact h2 _ _ rfl
    · simp
    · simp
    · simp

theorem raise_ne_diverge {α : Type} (st d p) : (raise st d p : Out Error α) ≠ .diverge := by
  unfold raise; split <;> simp

theorem raise_ne_ok {α : Type} {st d p} {x : α} : raise st d p ≠ .ok x := by
  unfold raise; split <;> simp

theorem raise_pos {α : Type} {st d p e} (h : (raise st d p : Out Error α) = .err e) : e.pos = st.pos := by
  unfold raise fromStatus at h
  split at h
  · rename_i h'
    rw [Option.map_eq_some_iff] at h'
    obtain ⟨_, _, rfl⟩ := h'
    cases h
    rfl
  · cases h

theorem getChar_init (c : Char) (r : Str) : ∃ st, getChar (.init (c :: r)) = .ok (st, c) ∧ st.pos.n = 1 ∧ st.potentialError = none := by
  refine ⟨_, rfl, ?_, rfl⟩
  dsimp only [Pos.init, Status.init]
  split <;> (try split) <;> simp

/-- if one of two texts is accepted and the other is not, the answers are different -/
theorem blur_ne_of_ok {x y : Out Error Node} {t : Node} (hx : x = .ok t) (hy : ∀ t, y ≠ .ok t) : x.blur ≠ y.blur := by
  subst hx
  cases y with
  | ok t' => exact absurd rfl (hy t')
  | _ => intro h; cases h

/-- **C106**: no atom looks too far: if `k` characters are not all that `parse` has looked at when the only rule is an atom, then some
text that begins with the same `k` characters gets another answer. -/
theorem C106_atom {a : Atom} {s : Str} {k : Nat} (hs : Ascii s) (ha : ∀ l, a = .literal l → Ascii l)
    (hk : ¬ Sees s (exAtom a) k) : ∃ s', s'.take k = s.take k ∧ (parse s' (exAtom a)).blur ≠ (parse s (exAtom a)).blur := by
  by_cases hacc : ∃ t, parse s (exAtom a) = .ok t
  · obtain ⟨t, ht⟩ := hacc
    rw [C106_accepted_exact ht] at hk
    refine ⟨s.take k ++ [Char.ofNat 0xe9], ?_, fun h => blur_ne_of_ok ht ?_ h.symm⟩
    · rw [List.take_append, List.take_take, Nat.min_self, List.length_take, Nat.min_eq_left (by omega), Nat.sub_self, List.take_zero, List.append_nil]
    · intro t' hp
      have := ((parse_iff _ _ _).1 hp).1 (Char.ofNat 0xe9) (by simp)
      exact absurd this (by decide)
  have hacc : ∀ t, parse s (exAtom a) ≠ .ok t := fun t h => hacc ⟨t, h⟩
  have key : ∀ s' t, s'.take k = s.take k → Ascii s' → Peg (denotes (exAtom a)) (.simple a) s' (.ok [] [t]) →
      ∃ s', s'.take k = s.take k ∧ (parse s' (exAtom a)).blur ≠ (parse s (exAtom a)).blur := fun s' t h1 h2 h3 =>
    ⟨s', h1, blur_ne_of_ok ((parse_iff _ _ (.rule c!"main" [t])).2 ⟨h2, .call_ok rfl h3⟩) hacc⟩
  cases a with
  | literal l =>
    obtain ⟨s', t, h1, h2⟩ := C106_needed (ha l rfl) hk
    exact ⟨s', h1, blur_ne_of_ok h2 hacc⟩
  | error m =>
    refine absurd (sees_exAtom ?_ (Nat.zero_le _) ?_) hk
    · exact raise_ne_diverge _ _ _
    · exact fun st n h => absurd h raise_ne_ok
  | dot =>
    cases s with
    | nil =>
      cases k with
      | zero => exact key ['a'] _ rfl (by decide) (.dot_ok _ _)
      | succ k =>
        refine absurd (sees_exAtom ?_ (by simp [atomLooks]) ?_) hk
        · exact raise_ne_diverge (.init []) .dot .normal
        · exact fun st n h => absurd (show raise (.init []) .dot .normal = .ok (st, n) from h) raise_ne_ok
    | cons c r =>
      rcases k with _ | _ | k
      · exact key ['a'] _ rfl (by decide) (.dot_ok _ _)
      · exact key [c] _ rfl (fun d hd => hs d (by simp at hd; simp [hd])) (.dot_ok _ _)
      · obtain ⟨st, hg, hn, _⟩ := getChar_init c r
        refine absurd (sees_exAtom (by simp [parseAtom, parseDot, hg]) (by simp [atomLooks]) ?_) hk
        intro st n h
        simp only [parseAtom, parseDot, hg, Out.ok.injEq, Prod.mk.injEq] at h
        rw [← h.1, hn]
        omega
  | eof =>
    cases s with
    | nil => exact absurd ((parse_iff _ _ _).2 ⟨hs, .call_ok rfl .eof_ok⟩) (hacc _)
    | cons c r =>
      cases k with
      | zero => exact key [] _ rfl (by decide) .eof_ok
      | succ k =>
        refine absurd (sees_exAtom ?_ (by simp [atomLooks]) ?_) hk
        · exact raise_ne_diverge _ _ _
        · exact fun st n h => absurd h raise_ne_ok
  | mtch cs rs =>
    have hnil : ∃ e, parse [] (exAtom (.mtch cs rs)) = .err e ∧ e.pos.n = 0 :=
      ⟨⟨.init, .mtch cs rs, [], [], [], .normal⟩, parse_of_fuel (f := 2) rfl (by simp), rfl⟩
    have hd : ∀ c r, parseAtom (.init (c :: r)) (.mtch cs rs) ≠ .diverge := by
      intro c r
      obtain ⟨st, hg, _, _⟩ := getChar_init c r
      simp only [parseAtom, parseMatch, hg]
      split
      · simp
      · exact raise_ne_diverge _ _ _
    have hcons : ∀ c r e, parse (c :: r) (exAtom (.mtch cs rs)) = .err e → e.pos.n ≠ 0 := by
      intro c r e h
      rw [parse_exAtom _ _ (hd c r)] at h
      obtain ⟨st, hg, hn, hp⟩ := getChar_init c r
      simp only [parseAtom, parseMatch, hg] at h
      by_cases hm : matchChar cs rs c
      · simp only [hm, if_true, hp] at h
        split at h
        · cases h
        · rw [raise_pos h, hn]; simp
      · rw [if_neg hm] at h
        have : (raise st (.mtch cs rs) .normal : Out Error (Status × Node)) = .err e := by
          have hno : ∀ x, (raise st (.mtch cs rs) .normal : Out Error (Status × Node)) ≠ .ok x := fun _ => raise_ne_ok
          revert h hno
          cases (raise st (.mtch cs rs) .normal : Out Error (Status × Node)) with
          | ok x => exact fun _ hno => absurd rfl (hno x)
          | err e' => intro h _; simpa using h
          | panic => simp
          | diverge => simp
        rw [raise_pos this, hn]; simp
    have hdiff : ∀ c r, (parse [] (exAtom (.mtch cs rs))).blur ≠ (parse (c :: r) (exAtom (.mtch cs rs))).blur := by
      intro c r h
      obtain ⟨e, h1, h2⟩ := hnil
      rw [h1] at h
      cases hp : parse (c :: r) (exAtom (.mtch cs rs)) with
      | err e' =>
        rw [hp] at h
        have h' : e.blur = e'.blur := by
          rw [Out.blur, Out.blur] at h
          exact Out.err.inj h
        have h4 := congrArg Error.pos h'
        have h3 : e.pos = e'.pos := h4
        exact hcons c r e' hp (by rw [← h3, h2])
      | ok t => rw [hp] at h; cases h
      | panic => rw [hp] at h; cases h
      | diverge => rw [hp] at h; cases h
    cases s with
    | nil =>
      cases k with
      | zero => exact ⟨['a'], rfl, fun h => hdiff _ _ h.symm⟩
      | succ k =>
        refine absurd (sees_exAtom ?_ (by simp [atomLooks]) ?_) hk
        · exact raise_ne_diverge (.init []) (.mtch cs rs) .normal
        · exact fun st n h => absurd (show raise (.init []) (.mtch cs rs) .normal = .ok (st, n) from h) raise_ne_ok
    | cons c r =>
      rcases k with _ | k
      · exact ⟨[], rfl, hdiff _ _⟩
      · obtain ⟨st, hg, hn, _⟩ := getChar_init c r
        by_cases hm : matchChar cs rs c
        · cases k with
          | zero =>
            exact key [c] _ rfl (fun d hd => hs d (by simp at hd; simp [hd])) (.class_ok _ _ _ _ ((matchChar_iff _ _ _).1 hm))
          | succ k =>
            refine absurd (sees_exAtom (hd c r) (by simp [atomLooks]) ?_) hk
            intro st n h
            simp only [parseAtom, parseMatch, hg, hm, if_true, Out.ok.injEq, Prod.mk.injEq] at h
            rw [← h.1, hn]
            omega
        · refine absurd (sees_exAtom (hd c r) (by simp [atomLooks]) ?_) hk
          intro st n h
          simp only [parseAtom, parseMatch, hg] at h
          rw [if_neg hm] at h
          exact absurd h raise_ne_ok

/-! ### Examples -/

/-- the check that a run with so much fuel is finished and has looked no further -/
def seesCheck (fuel : Nat) (s : Str) (R : SetOfRules) (k : Nat) : Bool :=
  (callsRuleName R fuel (.init s) c!"main").all (fun c => decide (callLooks c ≤ k)) &&
  match parseMain R fuel (.init s) with
  | .ok (st, _) => decide (st.pos.n + 1 ≤ k)
  | .diverge => false
  | _ => true

theorem sees_of_check {fuel s R k} (h : seesCheck fuel s R k = true) : Sees s R k := by
  unfold seesCheck at h
  rw [Bool.and_eq_true, List.all_eq_true] at h
  refine ⟨fuel, ?_, fun c hc => by simpa using h.1 c hc, ?_⟩
  · intro hx; rw [hx] at h; simp at h
  · intro st t hx
    rw [hx] at h
    simpa using h.2

def exList : SetOfRules := ⟨[(c!"main", .and [.simple (.literal c!"("), .rep (.simple (.mtch [] [('a', 'z')])) 0 none, .simple (.literal c!");")])]⟩

/-- whatever follows `(ab)x`, the error is the same -/
example (r : Str) : ∃ e, parse (c!"(ab)x" ++ r) exList = .err e ∧ e.pos.n = 5 ∧ e.descr = .literal c!");" := by
  have hs : Sees c!"(ab)x" exList 5 := sees_of_check (fuel := 20) (by decide +kernel)
  obtain ⟨e', h1, h2, h3, _⟩ := C106_error (s' := c!"(ab)x" ++ r) (e := ⟨⟨5, 0, 5, 0⟩, .literal c!");", c!"(ab)x", [], [], .normal⟩) hs rfl
    (parse_of_fuel (f := 20) (by decide +kernel) (by simp))
  exact ⟨e', h1, by rw [h2], h3⟩

/-- but four characters are not enough -/
example : ¬ Sees c!"(ab)x" exList 4 := by
  intro h
  have h1 := (C106_same (s' := c!"(ab);") h rfl).1
  rw [parse_of_fuel (s := c!"(ab);") (f := 20) (x := .ok (.rule c!"main" [.val c!"(", .val c!"a", .val c!"b", .val c!");"])) (by decide +kernel) (by simp),
    parse_of_fuel (s := c!"(ab)x") (f := 20) (x := .err ⟨⟨5, 0, 5, 0⟩, .literal c!");", c!"(ab)x", [], [], .normal⟩) (by decide +kernel) (by simp)] at h1
  cases h1

/-- `main = 'a'` and then a closing parenthesis: whatever follows, `rules_from_peg` returns an error -/
example (r : Str) : ∃ e, rulesFromPeg (c!"main = 'a' )" ++ r) = .err (.parser e) ∧ e.priority = .normal := by
  have hs : Sees c!"main = 'a' )" PegRules.parsePeg 12 := sees_of_check (fuel := 200) (by decide +kernel)
  have hp : ∃ e, rulesFromPeg c!"main = 'a' )" = .err (.parser e) ∧ e.priority = .normal := by
    have hb : (match parseWithDebugF 200 c!"main = 'a' )" PegRules.parsePeg false with | .err e => decide (e.priority = .normal) | _ => false) = true := by
      decide +kernel
    cases he : parseWithDebugF 200 c!"main = 'a' )" PegRules.parsePeg false with
    | err e =>
      rw [he] at hb
      exact ⟨e, (C39_syntax_errors _ _).2 (parse_of_fuel he (by simp)), by simpa using hb⟩
    | _ => rw [he] at hb; cases hb
  obtain ⟨e, h1, h2⟩ := hp
  obtain ⟨e', h3, _, _, _, _, h4⟩ := C106_peg (s' := c!"main = 'a' )" ++ r) hs rfl h1
  exact ⟨e', h3, by rw [h4, h2]⟩

end DP
