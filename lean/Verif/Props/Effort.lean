/-
C52, C53: how deep `parse` nests its calls and how many it makes.
-/
import Verif.Props.Termination
import Verif.Proofs.Meter
import Verif.Proofs.Decide

namespace DP
open Spec

/-! ### the meter and the API -/

theorem parse_diverge_iff {s R} : parse s R = .diverge ↔ ∀ fuel, parseMain R fuel (.init s) = .diverge := by
  have h1 : parse s R = .diverge ↔ runRule R (Status.init s) c!"main" = .diverge := by
    rw [parse_eq]
    cases hx : runRule R (Status.init s) c!"main" with
    | ok x =>
      simp only [reduceCtorEq, iff_false]
      split
      · simp
      · split
        · simp
        · exact fun h => raise_diverge h
    | err e => simp
    | panic => simp
    | diverge => simp
  rw [h1]
  constructor
  · intro h fuel
    by_contra hd
    have := limit_of (chain_rule R (Status.init s) c!"main") (n := fuel) rfl hd
    exact hd (this.symm.trans h)
  · intro h
    rcases runRule_elim R (Status.init s) c!"main" with hx | ⟨f, hx⟩
    · exact hx
    · rw [← hx]; exact h f

theorem uses_iff {s R m} : Uses s R m ↔ ∃ fuel, parseRuleName R fuel (.init s) c!"main" ≠ .diverge ∧
    (meterRuleName R fuel (.init s) c!"main").2 = m := Iff.rfl

/-- A parse that returns has used a definite number of calls and a definite depth; and only such a parse has. -/
theorem C53_uses (s : Str) (R : SetOfRules) :
    (parse s R ≠ .diverge ↔ ∃ m, Uses s R m) ∧ (∀ m m', Uses s R m → Uses s R m' → m = m') := by
  refine ⟨?_, ?_⟩
  · rw [Ne, parse_diverge_iff]
    push Not
    exact ⟨fun ⟨f, h⟩ => ⟨_, f, h, rfl⟩, fun ⟨_, f, h, _⟩ => ⟨f, h⟩⟩
  · rintro m m' ⟨f, h1, h2⟩ ⟨g, h3, h4⟩
    rw [← h2, ← h4]
    rcases Nat.le_total f g with h | h
    · exact (congrArg Prod.snd (meter_mono R h h1)).symm
    · exact congrArg Prod.snd (meter_mono R h h3)

/-- The measurement does not disturb: beside the numbers stands what the parser returns. -/
theorem C53_same_parser (R : SetOfRules) (fuel : Nat) (s : Str) :
    (meterRuleName R fuel (.init s) c!"main").1 = parseMain R fuel (.init s) := (meter_erase R fuel).1 _ _

theorem ne_panic_of_ascii {R : SetOfRules} {s f} (ha : Ascii s) (hd : parseRuleName R f (.init s) c!"main" ≠ .diverge) :
    parseRuleName R f (.init s) c!"main" ≠ .panic := by
  intro h
  have := limit_of (chain_rule R (Status.init s) c!"main") (n := f) rfl hd
  exact runRule_ne_panic ha (invP_init s) (this.trans h)

/-- **C53**: on ASCII text, what `parse` uses is what Spec/Effort.lean says (that specification counts the call of
`main` as a call of an expression, the program does not). -/
theorem C53_effort {s : Str} (ha : Ascii s) (R : SetOfRules) (m : Meter) :
    Uses s R m ↔ Effort (denotes R) (.one (.ruleName c!"main")) s (m.calls + 1) (m.depth + 1) := by
  have forth : ∀ m, Uses s R m → Effort (denotes R) (.one (.ruleName c!"main")) s (m.calls + 1) (m.depth + 1) := by
    rintro m ⟨f, h1, rfl⟩
    refine (meter_effort s f).1 (.init s) c!"main" (inv_init s) ?_
    rw [(meter_erase R f).1]
    exact ⟨h1, ne_panic_of_ascii ha h1⟩
  refine ⟨forth m, fun h => ?_⟩
  obtain ⟨o, ho⟩ := effort_ends h
  have hu : ∃ m, Uses s R m := by
    rw [← (C53_uses s R).1]
    intro hd
    rw [parse_eq] at hd
    have hr : runRule R (Status.init s) c!"main" ≠ .diverge := by
      intro hx
      rcases main_complete ho with hp | hc
      · rw [hx] at hp; cases hp
      · rw [hx] at hc
        cases o <;> obtain ⟨_, h1, _⟩ := hc <;> cases h1
    cases hx : runRule R (Status.init s) c!"main" with
    | ok x =>
      rw [hx] at hd
      simp only at hd
      split at hd
      · cases hd
      · split at hd
        · cases hd
        · exact raise_diverge hd
    | err e => rw [hx] at hd; cases hd
    | panic => rw [hx] at hd; cases hd
    | diverge => exact hr hx
  obtain ⟨m', hm'⟩ := hu
  obtain ⟨h1, h2⟩ := effort_det h (forth m' hm')
  obtain ⟨c, d⟩ := m
  obtain ⟨c', d'⟩ := m'
  simp only [Nat.add_right_cancel_iff] at h1 h2
  rw [h1, h2]; exact hm'

/-! ### C52: depth -/

/-- **C52**: without left recursion the calls of `parse_expr` never nest deeper than (length of the text + 1) × (number of
rules) × (height of the highest rule), also when `parse` does not return. -/
theorem C52_depth {R : SetOfRules} {H : Nat} (hlr : ∀ n, ¬ Relation.TransGen (LeftStep (denotes R)) n n)
    (hH : ∀ n e, R.get n = some e → height e ≤ H) (fuel : Nat) (s : Str) :
    (used fuel s R).depth ≤ (s.length + 1) * (R.entries.length * H) := by
  have := (meter_depth (calling_left R.entries.length H hlr) hH s fuel).1 (.init s) c!"main" [] (inv_init s) .nil (by simp)
  simp only [List.length_nil, Nat.sub_zero] at this
  rw [Nat.add_mul, Nat.one_mul, Nat.add_comm]
  exact this

/-- Without any recursion the depth does not depend on the text. -/
theorem C52_depth_without_recursion {R : SetOfRules} {H : Nat}
    (hr : ∀ n, ¬ Relation.TransGen (fun n m => ∃ e, denotes R n = some e ∧ Refs e m) n n)
    (hH : ∀ n e, R.get n = some e → height e ≤ H) (fuel : Nat) (s : Str) :
    (used fuel s R).depth ≤ R.entries.length * H := by
  have := (meter_depth (calling_refs R.entries.length H hr) hH s fuel).1 (.init s) c!"main" [] (inv_init s) .nil (by simp)
  simp only [List.length_nil, Nat.sub_zero, Nat.mul_zero, Nat.add_zero] at this
  exact this

theorem used_busy {R : SetOfRules} {s : Str} (hd : parse s R = .diverge) (fuel : Nat) : fuel ≤ 2 * (used fuel s R).calls + 1 :=
  (meter_busy R fuel).1 _ _ (by rw [(meter_erase R fuel).1]; exact parse_diverge_iff.mp hd fuel)

/-- a common bound for finitely many rules -/
theorem rules_bound (g : Expr → Nat) (R : SetOfRules) : ∃ K, ∀ n e, R.get n = some e → g e ≤ K := by
  obtain ⟨es⟩ := R
  induction es with
  | nil => exact ⟨0, by simp [SetOfRules.get]⟩
  | cons x xs ih =>
    obtain ⟨K, hK⟩ := ih
    refine ⟨max (g x.2) K, fun n e h => ?_⟩
    simp only [SetOfRules.get] at h
    rw [List.lookup_cons] at h
    split at h
    · cases h; omega
    · have := hK n e h; omega

theorem repOK_rules {R : SetOfRules} (h : ∀ n e b mn, denotes R n = some e → Sub (.rep b mn none) e → ¬ CanEmpty (denotes R) b) :
    ∀ n e, R.get n = some e → RepOK (denotes R) (effective e) := by
  intro n e hg b mn hs
  refine h n (effective e) b mn ?_ hs
  show (grammar R n).map effective = _
  rw [show grammar R n = some e from hg]; rfl

/-- The number of calls is at most exponential in their depth. -/
theorem C53_calls {R : SetOfRules} {K : Nat} {s : Str}
    (hrep : ∀ n e b mn, denotes R n = some e → Sub (.rep b mn none) e → ¬ CanEmpty (denotes R) b)
    (hW : ∀ n e, R.get n = some e → width e ≤ K) (hK : s.length + 1 ≤ K) (fuel : Nat) :
    (used fuel s R).calls ≤ (K + 1) ^ (used fuel s R).depth :=
  (meter_calls hK hW (repOK_rules hrep) s fuel).1 (.init s) c!"main" (inv_init s) (Nat.le_refl _)

/-- **C52**: a parse that does not return, of a grammar whose unbounded repetitions have bodies that consume, nests its
calls deeper and deeper: it exhausts any stack. -/
theorem C52_endless_stack {R : SetOfRules} {s : Str} (hd : parse s R = .diverge)
    (hrep : ∀ n e b mn, denotes R n = some e → Sub (.rep b mn none) e → ¬ CanEmpty (denotes R) b) :
    ∀ d, ∃ fuel₀, ∀ fuel, fuel₀ ≤ fuel → d ≤ (used fuel s R).depth := by
  intro d
  obtain ⟨K, hK⟩ := rules_bound width R
  refine ⟨2 * (max K (s.length + 1) + 1) ^ d + 2, fun fuel hf => ?_⟩
  by_contra hlt
  have h1 := C53_calls (K := max K (s.length + 1)) (s := s) hrep (fun n e h => (hK n e h).trans (by omega)) (by omega) fuel
  have h2 : (max K (s.length + 1) + 1) ^ (used fuel s R).depth ≤ (max K (s.length + 1) + 1) ^ d :=
    Nat.pow_le_pow_right (by omega) (by omega)
  have h3 := used_busy hd fuel
  omega

/-- **C52**: a parse that does not return, of a grammar without left recursion, goes on for ever (it makes any number of calls)
within a bounded stack. -/
theorem C52_endless_loop {R : SetOfRules} {s : Str} (hd : parse s R = .diverge)
    (hlr : ∀ n, ¬ Relation.TransGen (LeftStep (denotes R)) n n) :
    (∃ d, ∀ fuel, (used fuel s R).depth ≤ d) ∧
      ∀ c, ∃ fuel₀, ∀ fuel, fuel₀ ≤ fuel → c ≤ (used fuel s R).calls := by
  obtain ⟨H, hH⟩ := rules_bound height R
  refine ⟨⟨_, fun fuel => C52_depth hlr hH fuel s⟩, fun c => ⟨2 * c + 1, fun fuel hf => ?_⟩⟩
  have := used_busy hd fuel
  omega

/-- **C53**: a well-formed grammar returns, within a bound that depends on the rules and on the length of the text alone. -/
theorem C53_bound {R : SetOfRules} {K H : Nat} (h : WellFormed (denotes R)) (hH : ∀ n e, R.get n = some e → height e ≤ H)
    (hW : ∀ n e, R.get n = some e → width e ≤ K) (s : Str) :
    ∃ m, Uses s R m ∧ m.depth ≤ (s.length + 1) * (R.entries.length * H) ∧
      m.calls ≤ (max K (s.length + 1) + 1) ^ ((s.length + 1) * (R.entries.length * H)) := by
  obtain ⟨m, f, hf, rfl⟩ := (C53_uses s R).1.mp (C12_well_formed_grammars_terminate h s).1
  have h1 := C52_depth h.no_left_recursion hH f s
  refine ⟨_, ⟨f, hf, rfl⟩, h1, ?_⟩
  have h2 := C53_calls (K := max K (s.length + 1)) (s := s) h.no_empty_repetition (fun n e h => (hW n e h).trans (by omega)) (by omega) f
  exact h2.trans (Nat.pow_le_pow_right (by omega) h1)

/-- **C53**: without recursion and without empty repetition the number of calls is bounded by a polynomial in the length of
the text; its degree depends on the rules alone. -/
theorem C53_polynomial {R : SetOfRules} {K H : Nat}
    (hr : ∀ n, ¬ Relation.TransGen (fun n m => ∃ e, denotes R n = some e ∧ Refs e m) n n)
    (hrep : ∀ n e b mn, denotes R n = some e → Sub (.rep b mn none) e → ¬ CanEmpty (denotes R) b)
    (hH : ∀ n e, R.get n = some e → height e ≤ H) (hW : ∀ n e, R.get n = some e → width e ≤ K) (s : Str) (fuel : Nat) :
    (used fuel s R).calls ≤ (K + s.length + 2) ^ (R.entries.length * H) := by
  have h1 := C52_depth_without_recursion hr hH fuel s
  have h2 := C53_calls (K := K + s.length + 1) (s := s) hrep (fun n e h => (hW n e h).trans (by omega)) (by omega) fuel
  exact h2.trans (Nat.pow_le_pow_right (by omega) h1)

/-! ### the bounds are needed -/

/-- `main = "a" main / "a"` -/
def exRight : SetOfRules := ⟨[(c!"main", .or [.and [.simple (.literal c!"a"), .ruleName c!"main"], .simple (.literal c!"a")])]⟩

theorem exRight_peg (n : Nat) :
    (n = 0 → Peg (denotes exRight) (.ruleName c!"main") (List.replicate n 'a') .fail) ∧
    (n ≠ 0 → ∃ t, Peg (denotes exRight) (.ruleName c!"main") (List.replicate n 'a') (.ok [] [t])) := by
  have hfail : Peg (denotes exRight) (.ruleName c!"main") [] .fail :=
    .call_fail rfl (.or_next (.and_fail (.lit_fail _ _ (by decide))) (.or_next (.lit_fail _ _ (by decide)) (.or_nil _)))
  refine ⟨fun h => by rw [h]; exact hfail, ?_⟩
  induction n with
  | zero => intro h; exact absurd rfl h
  | succ n ih =>
    intro _
    cases n with
    | zero =>
      exact ⟨_, .call_ok rfl (.or_next (.and_tail_fail (.lit_ok c!"a" []) (.and_fail hfail)) (.or_ok (.lit_ok c!"a" [])))⟩
    | succ n =>
      obtain ⟨t, ht⟩ := ih (by omega)
      exact ⟨_, .call_ok rfl (.or_ok (.and_ok (.lit_ok c!"a" _) (.and_ok ht (.and_nil _))))⟩

theorem exRight_effort (n : Nat) :
    ∃ c, Effort (denotes exRight) (.one (.ruleName c!"main")) (List.replicate n 'a') (c + 1) (3 * (n + 1) + 1) := by
  induction n with
  | zero =>
    exact ⟨_, .call rfl (.or (.alt_more (.and (.seq_stop (.simple _ _) (.lit_fail c!"a" [] (by decide)) (by simp)))
      (.and_fail (.lit_fail c!"a" [] (by decide)))
      (.alt_more (.simple _ _) (.lit_fail c!"a" [] (by decide)) (.alt_nil _))))⟩
  | succ n ih =>
    obtain ⟨c, hc⟩ := ih
    have hlit : Peg (denotes exRight) (.simple (.literal c!"a")) (List.replicate (n + 1) 'a') (.ok (List.replicate n 'a') _) :=
      .lit_ok c!"a" _
    cases n with
    | zero =>
      have hp := (exRight_peg 0).1 rfl
      have := Effort.call (G := denotes exRight) (n := c!"main") rfl (.or (.alt_more (.and (.seq_more (.simple _ _) hlit (.seq_stop hc hp (by simp))))
        (.and_tail_fail hlit (.and_fail hp)) (.alt_stop (.simple _ _) hlit (by simp))))
      exact ⟨_, this⟩
    | succ n =>
      obtain ⟨t, hp⟩ := (exRight_peg (n + 1)).2 (by omega)
      have := Effort.call (G := denotes exRight) (n := c!"main") rfl (.or (.alt_stop (.and (.seq_more (.simple _ _) hlit
        (.seq_more hc hp (.seq_nil _)))) (.and_ok hlit (.and_ok hp (.and_nil _))) (by simp)))
      have hd : max 1 (max (3 * (n + 1 + 1) + 1) 0) + 1 + 1 + 1 = 3 * (n + 1 + 1 + 1) + 1 := by omega
      rw [hd] at this
      exact ⟨_, this⟩

theorem ascii_as (n : Nat) : Ascii (List.replicate n 'a') := by
  intro c hc
  rw [(List.mem_replicate.mp hc).2]; decide

/-- **C52**, the bound is attained: `main = "a" main / "a"`, one rule of height 3, nests exactly 3 × (n + 1) calls on n letters
"a". Any stack is exhausted by a text that is long enough. -/
theorem C52_depth_attained (n : Nat) : ∃ m, Uses (List.replicate n 'a') exRight m ∧ m.depth = (n + 1) * (1 * 3) := by
  obtain ⟨c, h⟩ := exRight_effort n
  exact ⟨⟨c, 3 * (n + 1)⟩, (C53_effort (ascii_as n) _ _).mpr h, by simp only; omega⟩

/-- `main = "(" main ")" / "(" main "]" / "a"` -/
def exTwice : SetOfRules := ⟨[(c!"main", .or [
  .and [.simple (.literal c!"("), .ruleName c!"main", .simple (.literal c!")")],
  .and [.simple (.literal c!"("), .ruleName c!"main", .simple (.literal c!"]")],
  .simple (.literal c!"a")])]⟩

/-- `(((a]]]` -/
def brackets (n : Nat) : Str := List.replicate n '(' ++ 'a' :: List.replicate n ']'

theorem exTwice_effort (n : Nat) : ∀ r : Str, ∃ c d t,
    Effort (denotes exTwice) (.one (.ruleName c!"main")) (brackets n ++ r) (c + 1) (d + 1) ∧ 2 ^ n ≤ c ∧
    Peg (denotes exTwice) (.ruleName c!"main") (brackets n ++ r) (.ok r [t]) := by
  induction n with
  | zero =>
    intro r
    have h1 : Peg (denotes exTwice) (.simple (.literal c!"(")) ('a' :: r) .fail := .lit_fail _ _ (by simp)
    have h2 : Peg (denotes exTwice) (.simple (.literal c!"a")) ('a' :: r) (.ok r _) := .lit_ok c!"a" r
    refine ⟨_, _, _, .call rfl (.or (.alt_more (.and (.seq_stop (.simple _ _) h1 (by simp))) (.and_fail h1)
      (.alt_more (.and (.seq_stop (.simple _ _) h1 (by simp))) (.and_fail h1) (.alt_stop (.simple _ _) h2 (by simp))))), by decide,
      .call_ok rfl (.or_next (.and_fail h1) (.or_next (.and_fail h1) (.or_ok h2)))⟩
  | succ n ih =>
    intro r
    have hb : brackets (n + 1) ++ r = '(' :: (brackets n ++ ']' :: r) := by
      unfold brackets
      rw [List.replicate_succ, List.replicate_succ']
      simp
    rw [hb]
    obtain ⟨c, d, t, he, hc, hp⟩ := ih (']' :: r)
    have h1 : Peg (denotes exTwice) (.simple (.literal c!"(")) ('(' :: (brackets n ++ ']' :: r)) (.ok (brackets n ++ ']' :: r) _) :=
      .lit_ok c!"(" _
    have h2 : Peg (denotes exTwice) (.simple (.literal c!")")) (']' :: r) .fail := .lit_fail _ _ (by simp)
    have h3 : Peg (denotes exTwice) (.simple (.literal c!"]")) (']' :: r) (.ok r _) := .lit_ok c!"]" r
    refine ⟨_, _, _, .call rfl (.or (.alt_more
      (.and (.seq_more (.simple _ _) h1 (.seq_more he hp (.seq_stop (.simple _ _) h2 (by simp)))))
      (.and_tail_fail h1 (.and_tail_fail hp (.and_fail h2)))
      (.alt_stop (.and (.seq_more (.simple _ _) h1 (.seq_more he hp (.seq_more (.simple _ _) h3 (.seq_nil _)))))
        (.and_ok h1 (.and_ok hp (.and_ok h3 (.and_nil _)))) (by simp)))), ?_,
      .call_ok rfl (.or_next (.and_tail_fail h1 (.and_tail_fail hp (.and_fail h2)))
        (.or_ok (.and_ok h1 (.and_ok hp (.and_ok h3 (.and_nil _))))))⟩
    rw [Nat.pow_succ]
    omega

theorem ascii_brackets (n : Nat) : Ascii (brackets n) := by
  intro c hc
  unfold brackets at hc
  rcases List.mem_append.mp hc with h | h
  · rw [(List.mem_replicate.mp h).2]; decide
  · rcases List.mem_cons.mp h with h | h
    · rw [h]; decide
    · rw [(List.mem_replicate.mp h).2]; decide

/-- **C53**, exponential time: nothing is remembered, so `main = "(" main ")" / "(" main "]" / "a"` accepts a text of 2n+1
characters only after more than 2ⁿ calls of `parse_expr`. -/
theorem C53_exponential (n : Nat) :
    (∃ t, parse (brackets n) exTwice = .ok t) ∧ ∃ m, Uses (brackets n) exTwice m ∧ 2 ^ n ≤ m.calls := by
  obtain ⟨c, d, t, he, hc, hp⟩ := exTwice_effort n []
  rw [List.append_nil] at he hp
  exact ⟨⟨t, (C02_parse_ok_iff_peg_any_bounds exTwice t (ascii_brackets n)).mpr hp⟩, ⟨c, d⟩, (C53_effort (ascii_brackets n) _ _).mpr he, hc⟩

/-- `main = "(" main (")" / "]") / "a"` -/
def exOnce : SetOfRules := ⟨[(c!"main", .or [
  .and [.simple (.literal c!"("), .ruleName c!"main", .or [.simple (.literal c!")"), .simple (.literal c!"]")]],
  .simple (.literal c!"a")])]⟩

theorem exOnce_effort (n : Nat) : ∀ r : Str, ∃ d t,
    Effort (denotes exOnce) (.one (.ruleName c!"main")) (brackets n ++ r) (7 * n + 5) (d + 1) ∧
    Peg (denotes exOnce) (.ruleName c!"main") (brackets n ++ r) (.ok r [t]) := by
  induction n with
  | zero =>
    intro r
    have h1 : Peg (denotes exOnce) (.simple (.literal c!"(")) ('a' :: r) .fail := .lit_fail _ _ (by simp)
    have h2 : Peg (denotes exOnce) (.simple (.literal c!"a")) ('a' :: r) (.ok r _) := .lit_ok c!"a" r
    exact ⟨_, _, .call rfl (.or (.alt_more (.and (.seq_stop (.simple _ _) h1 (by simp))) (.and_fail h1)
      (.alt_stop (.simple _ _) h2 (by simp)))), .call_ok rfl (.or_next (.and_fail h1) (.or_ok h2))⟩
  | succ n ih =>
    intro r
    have hb : brackets (n + 1) ++ r = '(' :: (brackets n ++ ']' :: r) := by
      unfold brackets
      rw [List.replicate_succ, List.replicate_succ']
      simp
    rw [hb]
    obtain ⟨d, t, he, hp⟩ := ih (']' :: r)
    have h1 : Peg (denotes exOnce) (.simple (.literal c!"(")) ('(' :: (brackets n ++ ']' :: r)) (.ok (brackets n ++ ']' :: r) _) :=
      .lit_ok c!"(" _
    have h2 : Peg (denotes exOnce) (.simple (.literal c!")")) (']' :: r) .fail := .lit_fail _ _ (by simp)
    have h3 : Peg (denotes exOnce) (.simple (.literal c!"]")) (']' :: r) (.ok r _) := .lit_ok c!"]" r
    have hor : Peg (denotes exOnce) (.or [.simple (.literal c!")"), .simple (.literal c!"]")]) (']' :: r) (.ok r _) :=
      .or_next h2 (.or_ok h3)
    have hand := Peg.and_ok h1 (.and_ok hp (.and_ok hor (.and_nil _)))
    have := Effort.call (G := denotes exOnce) (n := c!"main") rfl (.or (.alt_stop (.and (.seq_more (.simple _ _) h1
      (.seq_more he hp (.seq_more (.or (.alt_more (.simple _ _) h2 (.alt_stop (.simple _ _) h3 (by simp)))) hor (.seq_nil _)))))
      hand (by simp)))
    have hc : 1 + (7 * n + 5 + (1 + 1 + 1 + 0)) + 1 + 1 + 1 = 7 * (n + 1) + 5 := by omega
    rw [hc] at this
    exact ⟨_, _, this, .call_ok rfl (.or_ok hand)⟩

/-- The same texts with the alternatives factored, `main = "(" main (")" / "]") / "a"`: 7n + 4 calls. -/
theorem C53_factored (n : Nat) :
    (∃ t, parse (brackets n) exOnce = .ok t) ∧ ∃ m, Uses (brackets n) exOnce m ∧ m.calls = 7 * n + 4 := by
  obtain ⟨d, t, he, hp⟩ := exOnce_effort n []
  rw [List.append_nil] at he hp
  exact ⟨⟨t, (C02_parse_ok_iff_peg_any_bounds exOnce t (ascii_brackets n)).mpr hp⟩, ⟨7 * n + 4, d⟩,
    (C53_effort (ascii_brackets n) _ _).mpr he, rfl⟩

/-! ### examples -/

/-- a bound of all entries bounds all rules -/
theorem bound_of_entries {g : Expr → Nat} {R : SetOfRules} {K : Nat} (h : ∀ x ∈ R.entries, g x.2 ≤ K) :
    ∀ n e, R.get n = some e → g e ≤ K := fun _ _ hg => h _ (mem_of_get hg)

example : Uses c!"((a]]" exTwice ⟨51, 9⟩ := ⟨40, by decide +kernel, by decide +kernel⟩
example : Uses c!"((a]]" exOnce ⟨18, 9⟩ := ⟨40, by decide +kernel, by decide +kernel⟩

example (s : Str) : ∃ m, Uses s exNested m ∧ m.depth ≤ (s.length + 1) * (3 * 4) ∧
    m.calls ≤ (max 3 (s.length + 1) + 1) ^ ((s.length + 1) * (3 * 4)) :=
  C53_bound (wf_of_check (nul := [c!"ws"]) (ranks := [c!"ws", c!"expr", c!"main"]) (by decide +kernel))
    (bound_of_entries (g := height) (by decide)) (bound_of_entries (g := width) (by decide)) s

/-- left recursion: the stack overflows -/
example {s : Str} (ha : Ascii s) (d : Nat) : ∃ fuel₀, ∀ fuel, fuel₀ ≤ fuel → d ≤ (used fuel s ⟨[(c!"main",
    .or [.and [.ruleName c!"main", .simple (.literal c!"a")], .simple (.literal c!"b")])]⟩).depth := by
  refine C52_endless_stack (C13_false_left_recursion ha) ?_ d
  intro n e b mn hg hs
  simp only [denotes, grammar, List.lookup_cons, List.lookup_nil] at hg
  split at hg
  · simp only [Option.map_some, effective, effectives, Option.some.injEq] at hg
    subst hg
    cases hs with
    | or hm hs =>
      simp only [List.mem_cons, List.not_mem_nil, or_false] at hm
      rcases hm with rfl | rfl
      · cases hs with
        | and hm hs =>
          simp only [List.mem_cons, List.not_mem_nil, or_false] at hm
          rcases hm with rfl | rfl <;> cases hs
      · cases hs
  · cases hg

/-- an empty repetition: the program hangs within a bounded stack -/
example : (∃ d, ∀ fuel, (used fuel c!"b" ⟨[(c!"main", .rep (.rep (.simple (.literal c!"a")) 0 (some 1)) 0 none)]⟩).depth ≤ d) ∧
    ∀ c, ∃ fuel₀, ∀ fuel, fuel₀ ≤ fuel →
      c ≤ (used fuel c!"b" ⟨[(c!"main", .rep (.rep (.simple (.literal c!"a")) 0 (some 1)) 0 none)]⟩).calls := by
  refine C52_endless_loop C13_false_empty_repetition ?_
  have hno : ∀ n m, ¬ LeftStep (denotes ⟨[(c!"main", .rep (.rep (.simple (.literal c!"a")) 0 (some 1)) 0 none)]⟩) n m := by
    rintro n m ⟨e, hg, hm⟩
    simp only [denotes, grammar, List.lookup_cons, List.lookup_nil] at hg
    split at hg
    · simp only [Option.map_some, effective, Option.some.injEq] at hg
      subst hg
      cases hm with
      | rep hm => cases hm with
        | rep hm => cases hm
    · cases hg
  intro n h
  cases h with
  | single h => exact hno _ _ h
  | tail _ h => exact hno _ _ h

/-- `main = word*`, `word = [a-z]+ " "`: no recursion -/
def exMeterFlat : SetOfRules := ⟨[(c!"main", .rep (.ruleName c!"word") 0 none),
  (c!"word", .and [.rep (.simple (.mtch [] [('a', 'z')])) 1 none, .simple (.literal c!" ")])]⟩

example (s : Str) (fuel : Nat) : (used fuel s exMeterFlat).depth ≤ 2 * 3 ∧ (used fuel s exMeterFlat).calls ≤ (2 + s.length + 2) ^ (2 * 3) := by
  have hr : ∀ n, ¬ Relation.TransGen (fun n m => ∃ e, denotes exMeterFlat n = some e ∧ Refs e m) n n := by
    have hstep : ∀ n m, (∃ e, denotes exMeterFlat n = some e ∧ Refs e m) → n = c!"main" ∧ m = c!"word" := by
      rintro n m ⟨e, hg, hm⟩
      simp only [exMeterFlat, denotes, grammar, List.lookup_cons, List.lookup_nil] at hg
      split at hg
      · rename_i hn
        simp only [beq_iff_eq] at hn
        simp only [Option.map_some, effective, Option.some.injEq] at hg
        subst hg
        cases hm with
        | rep hm => cases hm; exact ⟨hn, rfl⟩
      · split at hg
        · simp only [Option.map_some, effective, effectives, Option.some.injEq] at hg
          subst hg
          cases hm with
          | and hx hm =>
            simp only [List.mem_cons, List.not_mem_nil, or_false] at hx
            rcases hx with rfl | rfl
            · cases hm with | rep hm => cases hm
            · cases hm
        · cases hg
    intro n h
    have h1 : n = c!"main" := by
      cases h using Relation.TransGen.head_induction_on with
      | single h => exact (hstep _ _ h).1
      | head h _ => exact (hstep _ _ h).1
    have h2 : n = c!"word" := by
      cases h with
      | single h => exact (hstep _ _ h).2
      | tail _ h => exact (hstep _ _ h).2
    rw [h1] at h2
    exact absurd h2 (by decide)
  have hwf : WellFormed (denotes exMeterFlat) :=
    wf_of_check (nul := [c!"main"]) (ranks := [c!"word", c!"main"]) (by decide +kernel)
  exact ⟨C52_depth_without_recursion hr (bound_of_entries (g := height) (by decide)) fuel s,
    C53_polynomial hr hwf.no_empty_repetition (bound_of_entries (g := height) (by decide))
      (bound_of_entries (g := width) (by decide)) s fuel⟩

end DP
