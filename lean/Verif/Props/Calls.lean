/-
C102: the different calls of parse_expr are few (src/parser/expression/mod.rs:179-327, src/lib.rs:486-521).
-/
import Verif.Model.Calls
import Verif.Spec.Calls
import Verif.Proofs.Forget
import Verif.Proofs.Position
import Verif.Props.Effort
import Mathlib.Data.List.ProdSigma

namespace DP
open Spec

/-- the calls listed are those counted -/
theorem calls_count (R : SetOfRules) : ∀ f,
    (∀ st n, (callsRuleName R f st n).length = (meterRuleName R f st n).2.calls) ∧
    (∀ st e, (callsExpr R f st e).length = (meterExpr R f st e).2.calls) ∧
    (∀ st es acc, (callsAnd R f st es).length = (meterAnd R f st es acc).2.calls) ∧
    (∀ st es acc, (callsOr R f st es).length = (meterOr R f st es acc).2.calls) ∧
    (∀ e mn mx st k acc, (callsRepeat R f e mn mx st k).length = (meterRepeat R f e mn mx st k acc).2.calls) := by
  intro f
  induction f with
  | zero =>
    refine ⟨?_, ?_, ?_, ?_, ?_⟩ <;> intros
    · rw [callsRuleName, meterRuleName]; rfl
    · rw [callsExpr, meterExpr]; rfl
    · rw [callsAnd, meterAnd]; rfl
    · rw [callsOr, meterOr]; rfl
    · rw [callsRepeat, meterRepeat]; rfl
  | succ f ih =>
    obtain ⟨ih1, ih2, ih3, ih4, ih5⟩ := ih
    have er := (meter_erase R f).2.1
    refine ⟨?_, ?_, ?_, ?_, ?_⟩
    · intro st n
      rw [callsRuleName, meterRuleName]
      cases R.get n with
      | none => rfl
      | some e =>
        simp only
        rw [ih2]
        rcases meterExpr R f _ e with ⟨x | x | _ | _, m⟩ <;> rfl
    · intro st e
      cases e with
      | simple a => rw [callsExpr, meterExpr]; rfl
      | and es => rw [callsExpr, meterExpr, List.length_cons, ih3 st es []]; rfl
      | or es => rw [callsExpr, meterExpr, List.length_cons, ih4 st es none]; rfl
      | not e =>
        rw [callsExpr, meterExpr, List.length_cons, ih2]
        rcases meterExpr R f st e with ⟨x | x | _ | _, m⟩ <;> rfl
      | rep e mn mx => rw [callsExpr, meterExpr, List.length_cons, ih5 e mn mx st 0 []]; rfl
      | ruleName n =>
        rw [callsExpr, meterExpr, List.length_cons, ih1]
        rcases meterRuleName R f st n with ⟨x | x | _ | _, m⟩ <;> rfl
    · intro st es acc
      cases es with
      | nil => rw [callsAnd, meterAnd]; rfl
      | cons e es =>
        rw [callsAnd, meterAnd, List.length_append, ih2, ← er]
        rcases meterExpr R f st e with ⟨⟨st', v⟩ | x | _ | _, m⟩
        · simp only [ih3 st' es (acc ++ v)]; rfl
        all_goals rfl
    · intro st es acc
      cases es with
      | nil => cases acc <;> rw [callsOr, meterOr] <;> rfl
      | cons e es =>
        rw [callsOr, meterOr, List.length_append, ih2, ← er]
        rcases meterExpr R f st e with ⟨x | x | _ | _, m⟩
        · rfl
        · simp only
          split
          · rfl
          · rw [ih4 st es (deepErr acc x)]; rfl
        all_goals rfl
    · intro e mn mx st k acc
      rw [callsRepeat, meterRepeat, List.length_append, ih2, ← er]
      rcases meterExpr R f st e with ⟨⟨st', v⟩ | x | _ | _, m⟩
      · simp only
        split
        · rfl
        · rw [ih5 e mn mx st' (k + 1) (acc ++ v)]; rfl
      · simp only
        split
        · split <;> rfl
        · rfl
      all_goals rfl

/-- One more unit of fuel does not change the calls of a finished run. -/
theorem calls_step (R : SetOfRules) : ∀ f,
    (∀ st n, parseRuleName R f st n ≠ .diverge → callsRuleName R (f + 1) st n = callsRuleName R f st n) ∧
    (∀ st e, parseExpr R f st e ≠ .diverge → callsExpr R (f + 1) st e = callsExpr R f st e) ∧
    (∀ st es acc, parseAnd R f st es acc ≠ .diverge → callsAnd R (f + 1) st es = callsAnd R f st es) ∧
    (∀ st es acc, parseOr R f st es acc ≠ .diverge → callsOr R (f + 1) st es = callsOr R f st es) ∧
    (∀ e mn mx st k acc, parseRepeat R f e mn mx st k acc ≠ .diverge → callsRepeat R (f + 1) e mn mx st k = callsRepeat R f e mn mx st k) := by
  intro f
  induction f with
  | zero =>
    refine ⟨?_, ?_, ?_, ?_, ?_⟩ <;> intros <;> rename_i h <;> exfalso <;> apply h
    · rw [parseRuleName]
    · rw [parseExpr]
    · rw [parseAnd]
    · rw [parseOr]
    · rw [parseRepeat]
  | succ f ih =>
    obtain ⟨ih1, ih2, ih3, ih4, ih5⟩ := ih
    have fs : ∀ st e, parseExpr R f st e ≠ .diverge → parseExpr R (f + 1) st e = parseExpr R f st e := fun st e h =>
      parseExpr_mono (Nat.le_succ f) rfl h
    refine ⟨?_, ?_, ?_, ?_, ?_⟩
    · intro st n h
      rw [callsRuleName, callsRuleName]
      rw [parseRuleName] at h
      cases hg : R.get n with
      | none => rfl
      | some e =>
        rw [hg] at h
        simp only at h ⊢
        refine ih2 _ _ fun hd => h ?_
        rw [hd]
    · intro st e h
      cases e with
      | simple a => rw [callsExpr, callsExpr]
      | and es => rw [callsExpr, callsExpr, ih3 st es [] (by rwa [parseExpr] at h)]
      | or es => rw [callsExpr, callsExpr, ih4 st es none (by rwa [parseExpr] at h)]
      | not e =>
        rw [callsExpr, callsExpr, ih2 st e (fun hd => h (by rw [parseExpr, hd]))]
      | rep e mn mx => rw [callsExpr, callsExpr, ih5 e mn mx st 0 [] (by rwa [parseExpr] at h)]
      | ruleName n =>
        rw [callsExpr, callsExpr, ih1 st n (fun hd => h (by rw [parseExpr, hd]))]
    · intro st es acc h
      cases es with
      | nil => rw [callsAnd, callsAnd]
      | cons e es =>
        have hd : parseExpr R f st e ≠ .diverge := fun hd => h (by rw [parseAnd, hd])
        rw [callsAnd, callsAnd, fs st e hd, ih2 st e hd]
        rw [parseAnd] at h
        cases hx : parseExpr R f st e with
        | ok x => rw [hx] at h; simp only at h ⊢; rw [ih3 _ _ _ h]
        | _ => rfl
    · intro st es acc h
      cases es with
      | nil => rw [callsOr, callsOr]
      | cons e es =>
        have hd : parseExpr R f st e ≠ .diverge := fun hd => h (by rw [parseOr, hd])
        rw [callsOr, callsOr, fs st e hd, ih2 st e hd]
        rw [parseOr] at h
        cases hx : parseExpr R f st e with
        | err x =>
          rw [hx] at h
          simp only at h ⊢
          split
          · rfl
          · rename_i hc
            rw [if_neg hc] at h
            rw [ih4 _ _ _ h]
        | _ => rfl
    · intro e mn mx st k acc h
      have hd : parseExpr R f st e ≠ .diverge := fun hd => h (by rw [parseRepeat, hd])
      rw [callsRepeat, callsRepeat, fs st e hd, ih2 st e hd]
      rw [parseRepeat] at h
      cases hx : parseExpr R f st e with
      | ok x =>
        rw [hx] at h
        simp only at h ⊢
        split
        · rfl
        · rename_i hc
          rw [if_neg hc] at h
          rw [ih5 _ _ _ _ _ _ h]
      | _ => rfl

theorem calls_mono {R : SetOfRules} {f g : Nat} (h : f ≤ g) {st n} (hd : parseRuleName R f st n ≠ .diverge) :
    callsRuleName R g st n = callsRuleName R f st n := by
  obtain ⟨k, rfl⟩ := Nat.exists_eq_add_of_le h
  clear h
  induction k with
  | zero => rfl
  | succ k ih =>
    have := (calls_step R (f + k)).1 st n (by rw [parseRuleName_mono (Nat.le_add_right f k) rfl hd]; exact hd)
    rw [Nat.add_succ, this, ih]

/-- **C102**: the calls are determined by the text and the rules. -/
theorem C102_unique {s : Str} {R : SetOfRules} {l l'} (h : CallsOf s R l) (h' : CallsOf s R l') : l = l' := by
  obtain ⟨f, hd, rfl⟩ := h
  obtain ⟨g, hd', rfl⟩ := h'
  rcases Nat.le_total f g with hfg | hfg
  · exact (calls_mono hfg hd).symm
  · exact calls_mono hfg hd'

/-- **C102**: the list has as many entries as calls were counted (C53). -/
theorem C102_number {s : Str} {R : SetOfRules} {l} (h : CallsOf s R l) : ∃ m, Uses s R m ∧ m.calls = l.length := by
  obtain ⟨f, hd, rfl⟩ := h
  exact ⟨_, ⟨f, hd, rfl⟩, ((calls_count R f).1 _ _).symm⟩

/-- **C102**: and there is one whenever `parse` returns. -/
theorem C102_exists (s : Str) (R : SetOfRules) : parse s R ≠ .diverge ↔ ∃ l, CallsOf s R l := by
  rw [(C53_uses s R).1]
  constructor
  · rintro ⟨m, f, hd, _⟩
    exact ⟨_, f, hd, rfl⟩
  · rintro ⟨l, hl⟩
    obtain ⟨m, hm, _⟩ := C102_number hl
    exact ⟨m, hm⟩

/-! ### What the calls are given -/

mutual
theorem subexprs_self : ∀ e : Expr, e ∈ subexprs e
  | .simple _ => by simp [subexprs]
  | .and _ => by simp [subexprs]
  | .or _ => by simp [subexprs]
  | .not _ => by simp [subexprs]
  | .rep _ _ _ => by simp [subexprs]
  | .ruleName _ => by simp [subexprs]
end

theorem subexprsAll_mem {e : Expr} : ∀ {es : List Expr}, e ∈ es → ∀ {x}, x ∈ subexprs e → x ∈ subexprsAll es
  | e' :: es, h, x, hx => by
    rw [subexprsAll, List.mem_append]
    rcases List.mem_cons.1 h with rfl | h
    · exact .inl hx
    · exact .inr (subexprsAll_mem h hx)

/-- a set of expressions that contains those inside of its own -/
def Whole (X : Expr → Prop) : Prop :=
  (∀ es, X (.and es) → ∀ e ∈ es, X e) ∧ (∀ es, X (.or es) → ∀ e ∈ es, X e) ∧ (∀ e, X (.not e) → X e) ∧ ∀ e mn mx, X (.rep e mn mx) → X e

mutual
theorem subexprs_trans : ∀ {e x y : Expr}, x ∈ subexprs e → y ∈ subexprs x → y ∈ subexprs e
  | .simple a, x, y, h, h' => by simp only [subexprs, List.mem_singleton] at h; subst h; exact h'
  | .ruleName n, x, y, h, h' => by simp only [subexprs, List.mem_singleton] at h; subst h; exact h'
  | .and es, x, y, h, h' => by
    rw [subexprs, List.mem_cons] at h
    rcases h with rfl | h
    · exact h'
    · rw [subexprs, List.mem_cons]; exact .inr (subexprsAll_trans h h')
  | .or es, x, y, h, h' => by
    rw [subexprs, List.mem_cons] at h
    rcases h with rfl | h
    · exact h'
    · rw [subexprs, List.mem_cons]; exact .inr (subexprsAll_trans h h')
  | .not e, x, y, h, h' => by
    rw [subexprs, List.mem_cons] at h
    rcases h with rfl | h
    · exact h'
    · rw [subexprs, List.mem_cons]; exact .inr (subexprs_trans h h')
  | .rep e mn mx, x, y, h, h' => by
    rw [subexprs, List.mem_cons] at h
    rcases h with rfl | h
    · exact h'
    · rw [subexprs, List.mem_cons]; exact .inr (subexprs_trans h h')
theorem subexprsAll_trans : ∀ {es : List Expr} {x y : Expr}, x ∈ subexprsAll es → y ∈ subexprs x → y ∈ subexprsAll es
  | [], x, y, h, _ => by simp [subexprsAll] at h
  | e :: es, x, y, h, h' => by
    rw [subexprsAll, List.mem_append] at h ⊢
    exact h.imp (fun h => subexprs_trans h h') (fun h => subexprsAll_trans h h')
end

theorem whole_rules (R : SetOfRules) : Whole (· ∈ rulesExprs R) := by
  have key : ∀ {x y}, y ∈ subexprs x → x ∈ rulesExprs R → y ∈ rulesExprs R := by
    intro x y h hx
    obtain ⟨ne, h1, h2⟩ := List.mem_flatMap.1 hx
    exact List.mem_flatMap.2 ⟨ne, h1, subexprs_trans h2 h⟩
  refine ⟨fun es hx e he => key ?_ hx, fun es hx e he => key ?_ hx, fun e hx => key ?_ hx, fun e mn mx hx => key ?_ hx⟩
  · rw [subexprs]; exact List.mem_cons_of_mem _ (subexprsAll_mem he (subexprs_self e))
  · rw [subexprs]; exact List.mem_cons_of_mem _ (subexprsAll_mem he (subexprs_self e))
  · rw [subexprs]; exact List.mem_cons_of_mem _ (subexprs_self e)
  · rw [subexprs]; exact List.mem_cons_of_mem _ (subexprs_self e)

/-- a status of a parse that does not list rules -/
structure Unlisted (s : Str) (st : Status) : Prop extends Inv s st where
  trace : st.traceRules = false
  walking : st.walkingRules = []

theorem unlisted_init (s : Str) : Unlisted s (.init s) := ⟨inv_init s, rfl, rfl⟩

theorem preserved_unlisted (R : SetOfRules) (s : Str) : Preserved R (fun _ => True) (Unlisted s) (fun _ => True) True where
  get h hg := ⟨inv_get h.toInv hg, by rw [(getChar_ok hg).2.2.2.1]; exact h.trace, by rw [(getChar_ok hg).2.2.2.2.1]; exact h.walking⟩
  push h _ ht := by rw [h.trace] at ht; cases ht
  pot h _ _ := ⟨⟨h.text, h.at_⟩, h.trace, h.walking⟩
  err _ _ _ := trivial
  pan _ _ _ := trivial

theorem unlisted_expr {R : SetOfRules} {s : Str} {f st e x} (h : Unlisted s st) (hx : parseExpr R f st e = .ok x) : Unlisted s x.1 := by
  have := (preserve (preserved_unlisted R s) (fun _ _ _ _ _ => trivial) f).2.1 st e h (fun _ _ => trivial)
  rw [hx] at this
  exact this

theorem calls_given (R : SetOfRules) (s : Str) : ∀ f,
    (∀ st n, Unlisted s st → ∀ p ∈ callsRuleName R f st n, p.1 ∈ rulesExprs R ∧ Unlisted s p.2) ∧
    (∀ st e, Unlisted s st → e ∈ rulesExprs R → ∀ p ∈ callsExpr R f st e, p.1 ∈ rulesExprs R ∧ Unlisted s p.2) ∧
    (∀ st es, Unlisted s st → (∀ e ∈ es, e ∈ rulesExprs R) → ∀ p ∈ callsAnd R f st es, p.1 ∈ rulesExprs R ∧ Unlisted s p.2) ∧
    (∀ st es, Unlisted s st → (∀ e ∈ es, e ∈ rulesExprs R) → ∀ p ∈ callsOr R f st es, p.1 ∈ rulesExprs R ∧ Unlisted s p.2) ∧
    (∀ e mn mx st k, Unlisted s st → e ∈ rulesExprs R → ∀ p ∈ callsRepeat R f e mn mx st k, p.1 ∈ rulesExprs R ∧ Unlisted s p.2) := by
  obtain ⟨w1, w2, w3, w4⟩ := whole_rules R
  intro f
  induction f with
  | zero =>
    refine ⟨?_, ?_, ?_, ?_, ?_⟩ <;> intros <;> simp_all [callsRuleName, callsExpr, callsAnd, callsOr, callsRepeat]
  | succ f ih =>
    obtain ⟨ih1, ih2, ih3, ih4, ih5⟩ := ih
    refine ⟨?_, ?_, ?_, ?_, ?_⟩
    · intro st n hq p hp
      rw [callsRuleName, hq.trace] at hp
      cases hg : R.get n with
      | none => rw [hg] at hp; simp at hp
      | some e =>
        rw [hg] at hp
        refine ih2 st e hq ?_ p (by simpa using hp)
        exact List.mem_flatMap.2 ⟨(n, e), mem_of_get hg, subexprs_self e⟩
    · intro st e hq he p hp
      cases e with
      | simple a => rw [callsExpr, List.mem_singleton] at hp; subst hp; exact ⟨he, hq⟩
      | and es =>
        rw [callsExpr, List.mem_cons] at hp
        rcases hp with rfl | hp
        · exact ⟨he, hq⟩
        · exact ih3 st es hq (w1 es he) p hp
      | or es =>
        rw [callsExpr, List.mem_cons] at hp
        rcases hp with rfl | hp
        · exact ⟨he, hq⟩
        · exact ih4 st es hq (w2 es he) p hp
      | not e =>
        rw [callsExpr, List.mem_cons] at hp
        rcases hp with rfl | hp
        · exact ⟨he, hq⟩
        · exact ih2 st e hq (w3 e he) p hp
      | rep e mn mx =>
        rw [callsExpr, List.mem_cons] at hp
        rcases hp with rfl | hp
        · exact ⟨he, hq⟩
        · exact ih5 e mn mx st 0 hq (w4 e mn mx he) p hp
      | ruleName n =>
        rw [callsExpr, List.mem_cons] at hp
        rcases hp with rfl | hp
        · exact ⟨he, hq⟩
        · exact ih1 st n hq p hp
    · intro st es hq he p hp
      cases es with
      | nil => rw [callsAnd] at hp; cases hp
      | cons e es =>
        rw [callsAnd, List.mem_append] at hp
        rcases hp with hp | hp
        · exact ih2 st e hq (he e (by simp)) p hp
        · cases hx : parseExpr R f st e with
          | ok x => rw [hx] at hp; exact ih3 x.1 es (unlisted_expr hq hx) (fun e h => he e (by simp [h])) p hp
          | _ => rw [hx] at hp; cases hp
    · intro st es hq he p hp
      cases es with
      | nil => rw [callsOr] at hp; cases hp
      | cons e es =>
        rw [callsOr, List.mem_append] at hp
        rcases hp with hp | hp
        · exact ih2 st e hq (he e (by simp)) p hp
        · cases hx : parseExpr R f st e with
          | err x =>
            rw [hx] at hp
            simp only at hp
            split at hp
            · cases hp
            · exact ih4 st es hq (fun e h => he e (by simp [h])) p hp
          | _ => rw [hx] at hp; cases hp
    · intro e mn mx st k hq he p hp
      rw [callsRepeat, List.mem_append] at hp
      rcases hp with hp | hp
      · exact ih2 st e hq he p hp
      · cases hx : parseExpr R f st e with
        | ok x =>
          rw [hx] at hp
          simp only at hp
          split at hp
          · cases hp
          · exact ih5 e mn mx x.1 (k + 1) (unlisted_expr hq hx) he p hp
        | _ => rw [hx] at hp; cases hp

/-- **C102**: each call is given an expression that occurs in the rules and a place of the text. -/
theorem C102_given {s : Str} {R : SetOfRules} {l} (h : CallsOf s R l) {e : Expr} {st : Status} (hm : (e, st) ∈ l) :
    e ∈ rulesExprs R ∧ st.pos.n ≤ s.length ∧ st.itParsing = s.drop st.pos.n := by
  obtain ⟨f, _, rfl⟩ := h
  obtain ⟨h1, h2⟩ := (calls_given R s f).1 _ _ (unlisted_init s) _ hm
  obtain ⟨pre, hp, hc⟩ := h2.at_
  refine ⟨h1, ?_, ?_⟩
  · rw [hc.n, hp, List.length_append]; omega
  · show st.itParsing = _
    rw [hc.n, hp, List.drop_left]

theorem unlisted_same {s : Str} {st st' : Status} (h : Unlisted s st) (h' : Unlisted s st') (hn : st.pos.n = st'.pos.n) :
    st' = st.recall st'.potentialError := by
  obtain ⟨pre, hp, hc⟩ := h.at_
  obtain ⟨pre', hp', hc'⟩ := h'.at_
  have hl : pre.length = pre'.length := by rw [← hc.n, ← hc'.n, hn]
  have hpp : pre = pre' := by
    have := congrArg (List.take pre.length) (hp.symm.trans hp')
    rwa [List.take_left, hl, List.take_left] at this
  subst hpp
  have hr : st.itParsing = st'.itParsing := List.append_cancel_left (hp.symm.trans hp')
  have hpos : st.pos = st'.pos := by
    cases h1 : st.pos
    cases h2 : st'.pos
    rw [h1] at hc
    rw [h2] at hc'
    have e1 := hc.n.trans hc'.n.symm
    have e2 := hc.row.trans hc'.row.symm
    have e3 := hc.col.trans hc'.col.symm
    have e4 := hc.startLine.trans hc'.startLine.symm
    simp only at e1 e2 e3 e4
    subst e1 e2 e3 e4
    rfl
  have e1 := h.text.trans h'.text.symm
  have e2 := h.trace.trans h'.trace.symm
  have e3 := h.walking.trans h'.walking.symm
  cases st
  cases st'
  simp only at hr hpos e1 e2 e3
  subst hr hpos e1 e2 e3
  rfl

/-- **C102**: calls with the same expression at the same place return the same, but for the error remembered in the status. -/
theorem C102_same_answer {s : Str} {R : SetOfRules} {l} (h : CallsOf s R l) {e : Expr} {st st' : Status} (hm : (e, st) ∈ l) (hm' : (e, st') ∈ l)
    (hn : st.pos.n = st'.pos.n) : ∀ fuel, Twin (parseExpr R fuel st e) (parseExpr R fuel st' e) := by
  obtain ⟨f, _, rfl⟩ := h
  have h2 : Unlisted s st := ((calls_given R s f).1 _ _ (unlisted_init s) _ hm).2
  have h3 : Unlisted s st' := ((calls_given R s f).1 _ _ (unlisted_init s) _ hm').2
  intro fuel
  have := unlisted_same h2 h3 hn
  rw [this]
  exact (twin R fuel).2.1 _ _ _

/-- **C102**: so at most (expressions in the rules) × (length of the text + 1) of the calls are different. -/
theorem C102_few {s : Str} {R : SetOfRules} {l} (h : CallsOf s R l) {d : List (Expr × Nat)} (hd : d.Nodup)
    (hs : ∀ p ∈ d, ∃ st, (p.1, st) ∈ l ∧ st.pos.n = p.2) : d.length ≤ (rulesExprs R).length * (s.length + 1) := by
  have hsub : d ⊆ (rulesExprs R) ×ˢ (List.range (s.length + 1)) := by
    rintro ⟨e, n⟩ hp
    obtain ⟨st, h1, h2⟩ := hs _ hp
    obtain ⟨g1, g2, _⟩ := C102_given h h1
    simp only at h2 g1
    exact List.mem_product.2 ⟨g1, List.mem_range.2 (by omega)⟩
  have := (hd.subperm hsub).length_le
  rwa [List.length_product, List.length_range] at this

theorem length_le_of_counts {α : Type} [BEq α] [LawfulBEq α] (N : Nat) : ∀ (d l : List α), (∀ x ∈ l, x ∈ d) → (∀ x ∈ d, l.count x ≤ N) → l.length ≤ N * d.length
  | [], l, h, _ => by
    cases l with
    | nil => simp
    | cons x l => exact absurd (h x (by simp)) (by simp)
  | y :: d, l, h, hc => by
    have h1 := length_le_of_counts N d (l.filter (fun x => !(x == y))) (by
      intro x hx
      rw [List.mem_filter] at hx
      rcases List.mem_cons.1 (h x hx.1) with rfl | hd
      · simp at hx
      · exact hd) (fun x hx => Nat.le_trans (List.Sublist.count_le x List.filter_sublist) (hc x (by simp [hx])))
    have h2 : l.length = l.count y + (l.filter (fun x => !(x == y))).length := by
      rw [List.count_eq_length_filter]
      exact List.length_eq_length_filter_add (l := l) (· == y)
    have h3 := hc y (by simp)
    rw [List.length_cons, Nat.mul_add, Nat.mul_one]
    omega

/-- **C102**: a parse with more calls makes one of them more than `N` times, at one place. -/
theorem C102_repeated {s : Str} {R : SetOfRules} {l} (h : CallsOf s R l) {N : Nat} (hN : N * ((rulesExprs R).length * (s.length + 1)) < l.length) :
    ∃ (e : Expr) (n : Nat), N < (l.map fun p => (p.1, p.2.pos.n)).count (e, n) := by
  by_contra hno
  have hno : ∀ x, (l.map fun p => (p.1, p.2.pos.n)).count x ≤ N := fun x => Nat.le_of_not_lt fun h => hno ⟨x.1, x.2, h⟩
  have := length_le_of_counts N ((rulesExprs R) ×ˢ (List.range (s.length + 1))) (l.map fun p => (p.1, p.2.pos.n)) (by
    rintro ⟨e, n⟩ hx
    obtain ⟨p, hp, hpe⟩ := List.mem_map.1 hx
    obtain ⟨g1, g2, _⟩ := C102_given h (show (p.1, p.2) ∈ l from hp)
    cases hpe
    exact List.mem_product.2 ⟨g1, List.mem_range.2 (by omega)⟩) (fun x _ => hno x)
  rw [List.length_product, List.length_range, List.length_map] at this
  omega

/-- **C102**: with the rules of C53 that take `2 ^ n` calls, one call is made more than `N` times as soon as `n` is large enough. -/
theorem C102_exponential {n N : Nat} (hn : N * (10 * (2 * n + 2)) < 2 ^ n) : ∃ l, CallsOf (brackets n) exTwice l ∧
    ∃ (e : Expr) (k : Nat), N < (l.map fun p => (p.1, p.2.pos.n)).count (e, k) := by
  obtain ⟨⟨t, ht⟩, m, hm, hc⟩ := C53_exponential n
  obtain ⟨l, hl⟩ := (C102_exists (brackets n) exTwice).1 (by rw [ht]; simp)
  refine ⟨l, hl, C102_repeated hl ?_⟩
  obtain ⟨m', hm', hl'⟩ := C102_number hl
  cases (C53_uses _ _).2 _ _ hm hm'
  have h1 : (rulesExprs exTwice).length = 10 := by decide
  have h2 : (brackets n).length = 2 * n + 1 := by simp [brackets]; omega
  rw [h1, h2, ← hl']
  exact Nat.lt_of_lt_of_le hn hc

/-! ### Examples -/

/-- `main = 'a'*` on `a`: the repetition at 0, the letter at 0 and at 1 -/
example : ∃ l, CallsOf c!"a" ⟨[(c!"main", .rep (.simple (.literal c!"a")) 0 none)]⟩ l ∧
    l.map (fun p => (p.1, p.2.pos.n)) = [(.rep (.simple (.literal c!"a")) 0 none, 0), (.simple (.literal c!"a"), 0), (.simple (.literal c!"a"), 1)] :=
  ⟨_, ⟨10, by decide +kernel, rfl⟩, by decide +kernel⟩

example : (rulesExprs ⟨[(c!"main", .rep (.simple (.literal c!"a")) 0 none)]⟩).length = 2 := by decide

/-- one call more than a thousand times -/
example : ∃ l, CallsOf (brackets 30) exTwice l ∧ ∃ (e : Expr) (k : Nat), 1000 < (l.map fun p => (p.1, p.2.pos.n)).count (e, k) :=
  C102_exponential (by decide)

/-- `main = 'a' 'b' / 'a' 'c'` -/
def acRules : SetOfRules := ⟨[(c!"main", .or [.and [.simple (.literal c!"a"), .simple (.literal c!"b")], .and [.simple (.literal c!"a"), .simple (.literal c!"c")]])]⟩

theorem acCalls : CallsOf c!"ac" acRules (callsRuleName acRules 20 (.init c!"ac") c!"main") := ⟨20, by decide +kernel, rfl⟩

/-- it tries `a` at the beginning twice -/
example : ((callsRuleName acRules 20 (.init c!"ac") c!"main").map fun p => (p.1, p.2.pos.n)).count (.simple (.literal c!"a"), 0) = 2 := by
  decide +kernel

example : ∃ (e : Expr) (n : Nat), 0 < ((callsRuleName acRules 20 (.init c!"ac") c!"main").map fun p => (p.1, p.2.pos.n)).count (e, n) :=
  C102_repeated acCalls (by decide +kernel)

example (st st' : Status) (h : (.simple (.literal c!"a"), st) ∈ callsRuleName acRules 20 (.init c!"ac") c!"main")
    (h' : (.simple (.literal c!"a"), st') ∈ callsRuleName acRules 20 (.init c!"ac") c!"main") (hn : st.pos.n = st'.pos.n) :
    Twin (parseExpr acRules 5 st (.simple (.literal c!"a"))) (parseExpr acRules 5 st' (.simple (.literal c!"a"))) :=
  C102_same_answer acCalls h h' hn 5

example {d : List (Expr × Nat)} (hd : d.Nodup) (hs : ∀ p ∈ d, ∃ st, (p.1, st) ∈ callsRuleName acRules 20 (.init c!"ac") c!"main" ∧ st.pos.n = p.2) :
    d.length ≤ 21 := C102_few acCalls hd hs

example : ∃ m, Uses c!"ac" acRules m ∧ m.calls = 7 := by
  obtain ⟨m, hm, hc⟩ := C102_number acCalls
  exact ⟨m, hm, hc.trans (by decide +kernel)⟩

example {l} (h : CallsOf c!"ac" acRules l) : l.length = 7 := by
  rw [C102_unique h acCalls]
  decide +kernel

end DP
