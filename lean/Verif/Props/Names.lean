import Verif.Proofs.Names
import Verif.Props.Effort
import Verif.Props.PegFront

/-!
# C88: what the trace of parse_debug costs

"It's expensive, use it just to develop and locate errors" (src/lib.rs:494). The list of the rules entered is copied with every
status and into every error.
-/

namespace DP
open Spec

theorem startStatus_untraced (s : Str) (b : Bool) : untraced (startStatus s b) = .init s := by cases b <;> rfl

theorem start_diverge {s R b f} : parseMain R f (startStatus s b) = .diverge ↔ parseMain R f (.init s) = .diverge := by
  have h := (untraced_fuel R f).1 (startStatus s b) c!"main"
  rw [startStatus_untraced] at h
  unfold parseMain
  rw [h]
  cases parseRuleName R f (startStatus s b) c!"main" <;> simp [untracedOut]

/-- **C88**: a call that returns has written a definite number of names; and only such a call has. -/
theorem C88_definite (s : Str) (R : SetOfRules) (debug : Bool) :
    (parse s R ≠ .diverge ↔ ∃ c, WritesNames s R debug c) ∧
    (∀ c c', WritesNames s R debug c → WritesNames s R debug c' → c = c') := by
  refine ⟨?_, ?_⟩
  · rw [Ne, parse_diverge_iff]
    push Not
    exact ⟨fun ⟨f, h⟩ => ⟨_, f, fun h' => h (start_diverge.1 h'), rfl⟩,
      fun ⟨_, f, h, _⟩ => ⟨f, fun h' => h (start_diverge.2 h')⟩⟩
  · rintro c c' ⟨f, h1, h2⟩ ⟨g, h3, h4⟩
    rw [← h2, ← h4]
    unfold namesF
    rcases Nat.le_total f g with h | h
    · rw [names_mono R h h1]
    · rw [names_mono R h h3]

/-- The counting does not disturb: beside the number stands what the parser returns. -/
theorem C88_same_parser (R : SetOfRules) (fuel : Nat) (s : Str) (debug : Bool) :
    (namesRuleName R fuel (startStatus s debug) c!"main").1 = parseMain R fuel (startStatus s debug) := (names_erase R fuel).1 _ _

/-- **C88**: `parse_debug` makes the calls that `parse` makes, as many and as deep. -/
theorem C88_same_calls (R : SetOfRules) (fuel : Nat) (s : Str) :
    (meterRuleName R fuel (.initDebug s true) c!"main").2 = used fuel s R :=
  ((untraced_meter R fuel).1 (.initDebug s true) c!"main").symm

/-- **C88**: `parse` writes no names. -/
theorem C88_parse {s : Str} {R : SetOfRules} {c : Nat} (h : WritesNames s R false c) : c = 0 := by
  obtain ⟨f, _, rfl⟩ := h
  have hq : Quiet (startStatus s false) := ⟨rfl, rfl, fun e h => by cases h⟩
  have hG := (quiet_all (R := R) f).1 _ c!"main" hq
  have h0 := (names_quiet (R := R) f).1 _ c!"main" hq
  rw [← (names_erase R f).1] at hG
  unfold namesF
  generalize namesRuleName R f (startStatus s false) c!"main" = y at hG h0 ⊢
  obtain ⟨x | x | _ | _, c⟩ := y
  · have hQ : Quiet x.1 := hG
    simp only at h0 ⊢
    subst h0
    have h1 := raise_names (α := Node) (st := x.1) (d := .notConsumed) (p := .normal)
    rw [hQ.2.1] at h1
    cases hp : x.1.potentialError with
    | none =>
      simp only
      split
      · rfl
      · exact (Nat.add_comm _ _).trans (Nat.le_zero.1 h1)
    | some e =>
      have := hQ.2.2 e hp
      simp only
      split <;> omega
  all_goals exact h0

/-- **C88**: `parse_debug` writes at most quadratically many names in the number of calls. -/
theorem C88_bound {s : Str} {R : SetOfRules} {m : Meter} {c : Nat} (hm : Uses s R m) (hc : WritesNames s R true c) :
    c ≤ (m.calls + 1) * (5 * m.calls + 3) := by
  obtain ⟨g, h3, hu⟩ := hm
  obtain ⟨f, h1, rfl⟩ := hc
  have h1' : parseMain R f (.init s) ≠ .diverge := fun h => h1 (start_diverge.2 h)
  have h5 : (meterRuleName R f (startStatus s true) c!"main").2 = m := by
    rw [← hu, ← (untraced_meter R f).1, startStatus_untraced]
    unfold used
    rcases Nat.le_total f g with h | h
    · rw [meter_mono R h h1']
    · rw [meter_mono R h h3]
  have h6 := (names_bound (R := R) f (m.calls + 1)).1 (startStatus s true) c!"main" (fun e h => by cases h)
    (by rw [(names_erase R f).1]; exact h1) (by rw [h5]; exact Nat.le_of_eq (by simp [startStatus, Status.initDebug]; omega))
  rw [h5] at h6
  unfold namesF
  generalize namesRuleName R f (startStatus s true) c!"main" = y at h6 ⊢
  obtain ⟨x | x | _ | _, c⟩ := y
  · obtain ⟨h7, h8, h9⟩ := h6
    simp only at h7 h8 h9 ⊢
    have hw : (startStatus s true).walkingRules.length = 0 := rfl
    rw [hw] at h8
    have h1 := raise_names (α := Node) (st := x.1) (d := .notConsumed) (p := .normal)
    have h10 : (m.calls + 1) * (5 * m.calls + 3) = 5 * (m.calls + 1) * m.calls + 3 * (m.calls + 1) := by
      rw [Nat.mul_add, ← Nat.mul_assoc, Nat.mul_comm (m.calls + 1) 5, Nat.mul_comm (m.calls + 1) 3]
    rw [h10]
    cases hp : x.1.potentialError with
    | none => simp only; split <;> omega
    | some e =>
      have := h9 e hp
      simp only
      split <;> omega
  all_goals
    have h7 := h6.1
    have h10 : (m.calls + 1) * (5 * m.calls + 3) = 5 * (m.calls + 1) * m.calls + 3 * (m.calls + 1) := by
      rw [Nat.mul_add, ← Nat.mul_assoc, Nat.mul_comm (m.calls + 1) 5, Nat.mul_comm (m.calls + 1) 3]
    rw [h10]
    simp only at h7 ⊢
    omega

/-- **C88**: the rules that an error of `parse_debug` lists have been written twice at least. -/
theorem C88_error {s : Str} {R : SetOfRules} {e : Error} {c : Nat} (h : parseDebug s R = .err e) (hc : WritesNames s R true c) :
    2 * e.parsingRules.length ≤ c := by
  obtain ⟨f, h1, rfl⟩ := hc
  have h2 : parseWithDebugF f s R true = .err e := by
    have h3 : parseWithDebugF f s R true ≠ .diverge := by
      unfold parseWithDebugF
      have h1' : parseMain R f (.initDebug s true) ≠ .diverge := h1
      simp only [if_true]
      cases hp : parseMain R f (.initDebug s true) with
      | ok x =>
        simp only
        split
        · simp
        · split
          · simp
          · unfold raise; split <;> simp
      | err e => simp
      | panic => simp
      | diverge => exact absurd hp h1'
    have := parseDebug_of_fuel (f := f) rfl h3
    rw [← this, h]
  have h4 := (names_paid (R := R) f).1 (startStatus s true) c!"main" 0 ⟨Nat.le_refl _, fun e h => by cases h⟩
  have h5 := (names_erase R f).1 (startStatus s true) c!"main"
  unfold namesF
  generalize namesRuleName R f (startStatus s true) c!"main" = y at h4 h5 ⊢
  obtain ⟨x, c⟩ := y
  simp only [Nat.zero_add] at h4 h5
  unfold parseWithDebugF parseMain at h2
  simp only [if_true] at h2
  rw [show parseRuleName R f (.initDebug s true) c!"main" = x from h5.symm] at h2
  rcases x with x | x | _ | _
  · simp only at h2 ⊢
    have hP : NamesPaid c x.1 := h4
    split at h2
    · cases h2
    · rename_i hn
      rw [if_neg hn]
      cases hp : x.1.potentialError with
      | some e' =>
        rw [hp] at h2
        cases h2
        have : 2 * e.parsingRules.length ≤ c := hP.2 e hp
        simp only
        omega
      | none =>
        rw [hp] at h2
        simp only at h2 ⊢
        have := hP.1
        have h6 : e.names = x.1.walkingRules.length := by
          unfold raise at h2
          cases hf : fromStatus x.1 .notConsumed .normal with
          | none => rw [hf] at h2; cases h2
          | some e' => rw [hf] at h2; cases h2; exact fromStatus_names hf
        rw [h2]
        show 2 * e.names ≤ c + 0 + e.names
        omega
  · cases h2; exact h4
  · cases h2
  · cases h2

/-! ### A list -/

def listText : Str := c!"main = x*\nx = 'a'\n"

def listRules : SetOfRules := ⟨[(c!"x", .simple (.literal c!"a")), (c!"main", .rep (.ruleName c!"x") 0 none)]⟩

theorem list_rules : rulesFromPeg listText = .ok listRules :=
  rulesFromPeg_of 200 (by decide +kernel)

/-- what the rounds write: with `w` names in the list and `n` letters to read -/
def listCost : Nat → Nat → Nat
  | 0, w => w + 1 + (w + 1)
  | n + 1, w => w + 1 + listCost n (w + 1)

theorem listCost_eq : ∀ n w, 2 * listCost n w = 2 * (n * w) + n * n + 5 * n + 4 * w + 4
  | 0, w => by simp only [listCost]; omega
  | n + 1, w => by
    have := listCost_eq n (w + 1)
    simp only [listCost, Nat.mul_add, Nat.add_mul, Nat.mul_one, Nat.one_mul] at this ⊢
    omega

/-- the rounds of `x*` -/
theorem list_rounds {s : Str} (ha : Ascii s) : ∀ n (st : Status) k acc f, Inv s st → st.itParsing = List.replicate n 'a' →
    st.traceRules = true → st.potentialError = none →
    ∃ st' ns e, namesRepeat listRules (f + n + 4) (.ruleName c!"x") 0 none st k acc =
        (.ok (st', ns), listCost n st.walkingRules.length) ∧
      st'.potentialError = some e ∧ e.names = st.walkingRules.length + n + 1 ∧ st'.pos.n = st.pos.n + n := by
  intro n
  induction n with
  | zero =>
    intro st k acc f hI hi ht hp
    have hI' : Inv s (st.pushRule (c!"r:" ++ c!"x")) := ⟨hI.text, hI.at_⟩
    obtain ⟨e, he⟩ := fromStatus_ascii ha hI' (.literal c!"a") .normal
    have hn : e.names = st.walkingRules.length + 1 := by
      rw [fromStatus_names he]; simp [Status.pushRule]
    have hr : parseAtomAsExpr (st.pushRule (c!"r:" ++ c!"x")) (.literal c!"a") = .err e := by
      have h1 : getChar (st.pushRule (c!"r:" ++ c!"x")) = .error (st.pushRule (c!"r:" ++ c!"x")) := by
        unfold getChar
        rw [show (st.pushRule (c!"r:" ++ c!"x")).itParsing = [] from hi]
      simp only [parseAtomAsExpr, parseAtom, parseLiteral, parseLiteralLoop, parseChar, h1, raise, he]
    have hcrit : e.priority ≠ .critical := by
      unfold fromStatus at he
      rw [Option.map_eq_some_iff] at he
      obtain ⟨_, _, rfl⟩ := he
      simp
    refine ⟨st.setPotentialError e, acc, e, ?_, rfl, by rw [hn], rfl⟩
    rw [namesRepeat, namesExpr, namesRuleName]
    simp only [ht, if_true, show listRules.get c!"x" = some (.simple (.literal c!"a")) from rfl]
    rw [namesExpr]
    simp only [hr, bigMinBound, ge_iff_le, Nat.zero_le, decide_true, if_true, hcrit, if_false, namesBuilt, hn]
    rw [show st.names = st.walkingRules.length by unfold Status.names; rw [hp]; rfl]
    simp only [listCost]
    congr 1
    omega
  | succ n ih =>
    intro st k acc f hI hi ht hp
    have hI' : Inv s (st.pushRule (c!"r:" ++ c!"x")) := ⟨hI.text, hI.at_⟩
    obtain ⟨st2, h1, h2, h3, h4, h5⟩ : ∃ st2, getChar (st.pushRule (c!"r:" ++ c!"x")) = .ok (st2, 'a') ∧
        st2.itParsing = List.replicate n 'a' ∧ st2.traceRules = true ∧ st2.potentialError = none ∧
        st2.pos.n = st.pos.n + 1 := by
      unfold getChar
      rw [show (st.pushRule (c!"r:" ++ c!"x")).itParsing = 'a' :: List.replicate n 'a' from hi]
      exact ⟨_, rfl, rfl, ht, hp, rfl⟩
    have hw : st2.walkingRules.length = st.walkingRules.length + 1 := by
      have := getChar_lists (st := st.pushRule (c!"r:" ++ c!"x"))
      rw [h1] at this
      rw [this.1]
      simp [Status.pushRule]
    have hr : parseAtomAsExpr (st.pushRule (c!"r:" ++ c!"x")) (.literal c!"a") = .ok (st2, [.val c!"a"]) := by
      simp only [parseAtomAsExpr, parseAtom, parseLiteral, parseLiteralLoop, parseChar, h1, if_true]
    obtain ⟨st', ns, e, h6, h7, h8, h9⟩ := ih st2 (k + 1) (acc ++ [.rule c!"x" [.val c!"a"]]) f (inv_get hI' h1) h2 h3 h4
    refine ⟨st', ns, e, ?_, h7, by rw [h8, hw]; omega, by rw [h9, h5]; omega⟩
    rw [show f + (n + 1) + 4 = (f + n + 4) + 1 by omega, namesRepeat, namesExpr, namesRuleName]
    simp only [ht, if_true, show listRules.get c!"x" = some (.simple (.literal c!"a")) from rfl]
    rw [namesExpr]
    simp only [hr, touchMaxBound, Bool.false_eq_true, if_false, namesBuilt]
    rw [h6, hw]
    rw [show st.names = st.walkingRules.length by unfold Status.names; rw [hp]; rfl]
    simp only [listCost]

/-- **C88**: on `n` letters `parse_debug` with `main = x*` writes `(n + 2) * (n + 7) / 2` names, for a tree of `2 * n + 1` nodes. -/
theorem C88_list : ∃ R, rulesFromPeg listText = .ok R ∧ ∀ n, (∃ t, parseDebug (List.replicate n 'a') R = .ok t) ∧
    ∃ c, WritesNames (List.replicate n 'a') R true c ∧ 2 * c = (n + 2) * (n + 7) := by
  refine ⟨_, list_rules, fun n => ?_⟩
  have ha : Ascii (List.replicate n 'a') := by
    intro c hc; rw [List.eq_of_mem_replicate hc]; decide
  obtain ⟨st', ns, e, h1, h2, h3, h4⟩ := list_rounds ha n
    ((Status.initDebug (List.replicate n 'a') true).pushRule (c!"r:" ++ c!"main")) 0 [] 0
    ⟨rfl, (inv_initDebug (List.replicate n 'a') true).at_⟩ rfl rfl rfl
  have h5 : namesRuleName listRules (0 + n + 4 + 1 + 1) (.initDebug (List.replicate n 'a') true) c!"main" =
      (.ok (st', .rule c!"main" ns), 1 + listCost n 1) := by
    rw [namesRuleName]
    simp only [show (Status.initDebug (List.replicate n 'a') true).traceRules = true from rfl, if_true,
      show listRules.get c!"main" = some (.rep (.ruleName c!"x") 0 none) from rfl]
    rw [namesExpr, h1]
    rfl
  have h6 : st'.pos.n = byteLen (List.replicate n 'a') := by
    rw [h4, byteLen_ascii ha]
    simp [Status.pushRule, Status.initDebug, Pos.init]
  have h7 : parseMain listRules (0 + n + 4 + 1 + 1) (.initDebug (List.replicate n 'a') true) = .ok (st', .rule c!"main" ns) := by
    have := (names_erase listRules (0 + n + 4 + 1 + 1)).1 (.initDebug (List.replicate n 'a') true) c!"main"
    rw [h5] at this
    exact this.symm
  refine ⟨⟨.rule c!"main" ns, parseDebug_of_fuel (f := 0 + n + 4 + 1 + 1) ?_ (by simp)⟩, _,
    ⟨0 + n + 4 + 1 + 1, ?_, rfl⟩, ?_⟩
  · unfold parseWithDebugF
    simp only [if_true, h7, h6]
  · show parseMain listRules (0 + n + 4 + 1 + 1) (.initDebug (List.replicate n 'a') true) ≠ .diverge
    rw [h7]
    simp
  · unfold namesF
    rw [show startStatus (List.replicate n 'a') true = .initDebug (List.replicate n 'a') true from rfl, h5]
    simp only [h2, h6, if_true, h3]
    rw [show ((Status.initDebug (List.replicate n 'a') true).pushRule (c!"r:" ++ c!"main")).walkingRules.length = 1 from rfl]
    have := listCost_eq n 1
    simp only [Nat.mul_add, Nat.add_mul, Nat.mul_one] at this ⊢
    omega

/-! ### Concretely -/

/-- seven names for nothing, and for `aa` 18 -/
example : WritesNames c!"" listRules true 7 ∧ WritesNames c!"a" listRules true 12 ∧ WritesNames c!"aa" listRules true 18 ∧
    WritesNames c!"aa" listRules false 0 :=
  ⟨⟨20, by decide +kernel, by decide +kernel⟩, ⟨20, by decide +kernel, by decide +kernel⟩, ⟨20, by decide +kernel, by decide +kernel⟩,
    ⟨20, by decide +kernel, by decide +kernel⟩⟩

/-- a choice copies the list once, and once more for each alternative; the error that is given up has it too -/
example : WritesNames c!"b" ⟨[(c!"main", .or [.simple (.literal c!"a"), .simple (.literal c!"b")])]⟩ true 5 :=
  ⟨20, by decide +kernel, by decide +kernel⟩

/-- `!` copies the list; and its error has it -/
example : WritesNames c!"b" ⟨[(c!"main", .and [.not (.simple (.literal c!"a")), .simple .dot])]⟩ true 3 ∧
    WritesNames c!"a" ⟨[(c!"main", .and [.not (.simple (.literal c!"a")), .simple .dot])]⟩ true 3 :=
  ⟨⟨20, by decide +kernel, by decide +kernel⟩, ⟨20, by decide +kernel, by decide +kernel⟩⟩

/-- a rule that is missing, a choice of nothing, a text that is not consumed: an error each -/
example : WritesNames c!"abc" ⟨[(c!"main", .ruleName c!"m")]⟩ true 4 ∧ WritesNames c!"abc" ⟨[(c!"main", .or [])]⟩ true 3 ∧
    WritesNames c!"abc" ⟨[(c!"main", .simple .dot)]⟩ true 2 :=
  ⟨⟨20, by decide +kernel, by decide +kernel⟩, ⟨20, by decide +kernel, by decide +kernel⟩, ⟨20, by decide +kernel, by decide +kernel⟩⟩

/-- the error for the missing rule lists two names; four have been written, no more than C88_error says -/
example : ∃ e, parseDebug c!"abc" ⟨[(c!"main", .ruleName c!"m")]⟩ = .err e ∧ e.parsingRules = [c!"r:main", c!"r:m"] :=
  ⟨_, parseDebug_of_fuel (f := 20) (x := .err ⟨⟨0, 0, 0, 0⟩, .missingRule c!"m", c!"", c!"abc", [c!"r:main", c!"r:m"], .critical⟩) (by decide +kernel) (by simp), rfl⟩

/-- a rule called under `main`: two names, and no copies -/
example : WritesNames c!"a" ⟨[(c!"main", .ruleName c!"x"), (c!"x", .simple (.literal c!"a"))]⟩ true 2 :=
  ⟨20, by decide +kernel, by decide +kernel⟩

/-- each round copies the list: `'a'+` that fails, `'a'?` that matches, and an `error` that ends a repetition or a choice -/
example : WritesNames c!"b" ⟨[(c!"main", .rep (.simple (.literal c!"a")) 1 none)]⟩ true 3 ∧
    WritesNames c!"a" ⟨[(c!"main", .rep (.simple (.literal c!"a")) 0 (some 1))]⟩ true 2 ∧
    WritesNames c!"a" ⟨[(c!"main", .rep (.simple (.error c!"e")) 0 none)]⟩ true 3 ∧
    WritesNames c!"a" ⟨[(c!"main", .or [.simple (.error c!"e")])]⟩ true 4 :=
  ⟨⟨20, by decide +kernel, by decide +kernel⟩, ⟨20, by decide +kernel, by decide +kernel⟩, ⟨20, by decide +kernel, by decide +kernel⟩,
    ⟨20, by decide +kernel, by decide +kernel⟩⟩

/-- the remembered error is copied with the status: `'x'* !'c' .` -/
example : WritesNames c!"b" ⟨[(c!"main", .and [.rep (.simple (.literal c!"x")) 0 none, .not (.simple (.literal c!"c")), .simple .dot])]⟩ true 7 :=
  ⟨20, by decide +kernel, by decide +kernel⟩

/-- it does not return: there is no number -/
example : ¬ ∃ c, WritesNames c!"a" ⟨[(c!"main", .ruleName c!"main")]⟩ true c := by
  rw [← (C88_definite _ _ true).1, not_not]
  exact C13_left_recursion_diverges (by decide) (.refl _ _) rfl (.refl _ _)

end DP
