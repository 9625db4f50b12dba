/-
Property C63: the rules read as a context-free grammar.
-/
import Verif.Proofs.Ll1Check
import Verif.Proofs.RustCode
import Verif.Props.Readme
import Verif.Props.Termination

namespace DP
open Spec Spec.Syntax Spec.Readme

/-- **C63**: whatever the rules, the tree of an accepted text is a derivation of it in the context-free
grammar that the rules are. -/
theorem C63_sound {s : Str} {R : SetOfRules} {t : Node} (h : parse s R = .ok t) :
    Gen (denotes R) (.ruleName c!"main") s [t] := by
  obtain ⟨u, hu, hg⟩ := gen_of_peg ((parse_iff _ _ _).1 h).2 _ _ rfl
  rw [List.append_nil] at hu
  rw [hu]
  exact hg

/-- The other direction does not hold: `main = 'a' / 'ab'` derives "ab", but it is not accepted. -/
def exPrefix : SetOfRules := ⟨[(c!"main", .or [.simple (.literal c!"a"), .simple (.literal c!"ab")])]⟩

theorem C63_incomplete : Gen (denotes exPrefix) (.ruleName c!"main") c!"ab" [.rule c!"main" [.val c!"ab"]] ∧
    ∀ t, parse c!"ab" exPrefix ≠ .ok t := by
  constructor
  · exact .call rfl (.or (e := .simple (.literal c!"ab")) (List.mem_cons_of_mem _ (List.mem_singleton.mpr rfl)) (.lit c!"ab"))
  · intro t h
    have h := ((parse_iff _ _ _).1 h).2
    obtain ⟨ns, _, h1⟩ := inv_call (e := .or [.simple (.literal c!"a"), .simple (.literal c!"ab")]) rfl h
    rcases inv_or_cons h1 with h2 | ⟨h2, _⟩
    · exact absurd (inv_lit h2).1 (by decide)
    · cases h2 with
      | lit_fail _ _ h => exact h ⟨c!"b", rfl⟩

theorem main_of_gen {R : SetOfRules} (hw : WellFormed (denotes R))
    (hp : ∀ n e, denotes R n = some e → Plain (denotes R) e) (hl : LL1 (denotes R)) {s ns}
    (h : Gen (denotes R) (.ruleName c!"main") s ns) : Peg (denotes R) (.ruleName c!"main") s (.ok [] ns) := by
  have h1 := peg_of_gen hp (fun n e hg b mn hs => hw.no_empty_repetition n e b mn hg hs)
    (fun s e he => peg_total_of_wf hw s e he) hl h (by cases h with | call hg _ => exact .call hg)
    (by intro b mn hs; cases hs) [] .main
  rwa [List.append_nil] at h1

/-- **C63**: for rules that are LL(1), without left recursion, `!`, `error(...)` and missing rules, the parser is
the context-free grammar: the accepted texts are the derived ones, and the tree is the derivation. -/
theorem C63_context_free {R : SetOfRules} (hw : WellFormed (denotes R))
    (hp : ∀ n e, denotes R n = some e → Plain (denotes R) e) (hl : LL1 (denotes R)) (s : Str) (t : Node) :
    parse s R = .ok t ↔ Ascii s ∧ Gen (denotes R) (.ruleName c!"main") s [t] :=
  ⟨fun h => ⟨((parse_iff _ _ _).1 h).1, C63_sound h⟩,
    fun ⟨ha, h⟩ => (parse_iff _ _ _).2 ⟨ha, main_of_gen hw hp hl h⟩⟩

/-- **C63**: and what is not derived is an error. -/
theorem C63_not_derived {R : SetOfRules} (hw : WellFormed (denotes R))
    (hp : ∀ n e, denotes R n = some e → Plain (denotes R) e) (hl : LL1 (denotes R)) {s : Str} (ha : Ascii s) :
    (∃ e, parse s R = .err e) ↔ ∀ t, ¬ Gen (denotes R) (.ruleName c!"main") s [t] := by
  constructor
  · rintro ⟨e, h⟩ t hg
    rw [(C63_context_free hw hp hl s t).2 ⟨ha, hg⟩] at h
    cases h
  · intro h
    rcases C12_total_on_ascii hw ha with ⟨t, ht⟩ | h1
    · exact absurd (C63_sound ht) (h t)
    · exact h1

/-- **C63**: such a grammar is not ambiguous. -/
theorem C63_unambiguous {R : SetOfRules} (hw : WellFormed (denotes R))
    (hp : ∀ n e, denotes R n = some e → Plain (denotes R) e) (hl : LL1 (denotes R)) {s : Str} {t t' : Node}
    (h : Gen (denotes R) (.ruleName c!"main") s [t]) (h' : Gen (denotes R) (.ruleName c!"main") s [t']) : t = t' := by
  have := peg_det (main_of_gen hw hp hl h) (main_of_gen hw hp hl h')
  cases this
  rfl

/-- **C63**: the order of the alternatives does not matter: two sets of such rules that only differ in it
accept the same texts with the same trees. -/
theorem C63_order {R R' : SetOfRules} (hw : WellFormed (denotes R)) (hw' : WellFormed (denotes R'))
    (hp : ∀ n e, denotes R n = some e → Plain (denotes R) e) (hp' : ∀ n e, denotes R' n = some e → Plain (denotes R') e)
    (hl : LL1 (denotes R)) (hl' : LL1 (denotes R'))
    (hs : ∀ n e, denotes R n = some e → ∃ e', denotes R' n = some e' ∧ Shuffle e e')
    (hs' : ∀ n e', denotes R' n = some e' → ∃ e, denotes R n = some e ∧ Shuffle e e') (s : Str) (t : Node) :
    parse s R = .ok t ↔ parse s R' = .ok t := by
  rw [C63_context_free hw hp hl, C63_context_free hw' hp' hl']
  exact and_congr_right fun _ => ⟨fun h => gen_shuffle hs h _ (.ruleName _), fun h => gen_shuffle' hs' h _ (.ruleName _)⟩

def exEither (a b : Str) : SetOfRules := ⟨[(c!"main", .or [.simple (.literal a), .simple (.literal b)])]⟩

theorem exEither_main {a b n e} (h : denotes (exEither a b) n = some e) :
    n = c!"main" ∧ e = .or [.simple (.literal a), .simple (.literal b)] := by
  unfold denotes grammar exEither at h
  by_cases hn : n = c!"main"
  · subst hn; cases h; exact ⟨rfl, rfl⟩
  · have : (n == c!"main") = false := by simpa using hn
    simp [List.lookup, this] at h

/-- `main = 'xa' / 'yb'` and `main = 'yb' / 'xa'` -/
example (s : Str) (t : Node) : parse s (exEither c!"xa" c!"yb") = .ok t ↔ parse s (exEither c!"yb" c!"xa") = .ok t := by
  have h1 := ll1_of_check (R := exEither c!"xa" c!"yb") (nul := []) (fst := fun _ => [('x', 'x'), ('y', 'y')])
    (fol := fun _ => [none]) (by decide +kernel)
  have h2 := ll1_of_check (R := exEither c!"yb" c!"xa") (nul := []) (fst := fun _ => [('x', 'x'), ('y', 'y')])
    (fol := fun _ => [none]) (by decide +kernel)
  refine C63_order (wf_of_check (nul := []) (ranks := []) (by decide +kernel))
    (wf_of_check (nul := []) (ranks := []) (by decide +kernel)) h1.1 h2.1 h1.2 h2.2 ?_ ?_ s t
  · intro n e h
    obtain ⟨rfl, rfl⟩ := exEither_main h
    exact ⟨_, rfl, .or (.cons (.simple _) (.cons (.simple _) .nil)) (.swap _ _ _)⟩
  · intro n e h
    obtain ⟨rfl, rfl⟩ := exEither_main h
    exact ⟨_, rfl, .or (.cons (.simple _) (.cons (.simple _) .nil)) (.swap _ _ _)⟩

/-! ### Balanced parentheses -/

def exDyckBody : Expr := .rep (.and [.simple (.literal c!"("), .ruleName c!"main", .simple (.literal c!")")]) 0 none

def exDyck : SetOfRules := ⟨[(c!"main", exDyckBody)]⟩

theorem dyck_rules : rulesFromPeg c!"main = ('(' main ')')*\n" = .ok exDyck := rulesFromPeg_of 200 (by decide +kernel)

theorem dyck_wf : WellFormed (denotes exDyck) := wf_of_check (nul := [c!"main"]) (ranks := [c!"main"]) (by decide +kernel)

theorem dyck_ll1 : (∀ n e, denotes exDyck n = some e → Plain (denotes exDyck) e) ∧ LL1 (denotes exDyck) :=
  ll1_of_check (nul := [c!"main"]) (fst := fun _ => [('(', '(')]) (fol := fun _ => [none, some (')', ')')]) (by decide +kernel)

theorem groups_append {u v} (hu : Groups u) (hv : Groups v) : Groups (u ++ v) := by
  induction hu with
  | nil => exact hv
  | @cons u w h1 _ _ ih =>
    have : ('(' :: (u ++ ')' :: w)) ++ v = '(' :: (u ++ ')' :: (w ++ v)) := by simp
    rw [this]
    exact .cons h1 ih

theorem dyck_main (n e) (h : denotes exDyck n = some e) : e = exDyckBody := by
  unfold denotes grammar exDyck at h
  by_cases hn : n = c!"main"
  · subst hn; cases h; rfl
  · have : (n == c!"main") = false := by simpa using hn
    simp [List.lookup, this] at h

theorem groups_of_gen {e s ns} (h : Gen (denotes exDyck) e s ns) :
    (e = exDyckBody ∨ e = .ruleName c!"main" → Groups s) ∧
    (e = .and [.simple (.literal c!"("), .ruleName c!"main", .simple (.literal c!")")] →
      ∃ u, s = '(' :: (u ++ [')']) ∧ Groups u) ∧
    (e = .and [.ruleName c!"main", .simple (.literal c!")")] → ∃ u, s = u ++ [')'] ∧ Groups u) := by
  induction h with
  | @cons e es u v ns ms h1 h2 ih1 ih2 =>
    refine ⟨fun h => (by rcases h with h | h <;> cases h), fun h => ?_, fun h => ?_⟩
    · cases h
      obtain ⟨w, rfl, hw⟩ := ih2.2.2 rfl
      cases h1
      exact ⟨w, rfl, hw⟩
    · cases h
      cases h2 with
      | cons h3 h4 =>
        cases h3
        cases h4
        exact ⟨u, rfl, ih1.1 (.inr rfl)⟩
  | none e mx => exact ⟨fun _ => .nil, fun h => (by cases h), fun h => (by cases h)⟩
  | full e mx => exact ⟨fun _ => .nil, fun h => (by cases h), fun h => (by cases h)⟩
  | more _ _ _ ih1 ih2 =>
    refine ⟨fun h => ?_, fun h => (by cases h), fun h => (by cases h)⟩
    rcases h with h | h
    · cases h
      obtain ⟨w, rfl, hw⟩ := ih1.2.1 rfl
      exact groups_append (.cons hw .nil) (ih2.1 (.inl rfl))
    · cases h
  | call hg _ ih =>
    exact ⟨fun _ => ih.1 (.inl (dyck_main _ _ hg)), fun h => (by cases h), fun h => (by cases h)⟩
  | _ => exact ⟨fun h => (by rcases h with h | h <;> cases h), fun h => (by cases h), fun h => (by cases h)⟩

theorem gen_of_groups {s} (h : Groups s) : ∃ ns, Gen (denotes exDyck) exDyckBody s ns := by
  induction h with
  | nil => exact ⟨_, .none _ _⟩
  | @cons u v _ _ ih1 ih2 =>
    obtain ⟨ns, h1⟩ := ih1
    obtain ⟨ms, h2⟩ := ih2
    have h3 := Gen.more (G := denotes exDyck) (mn := 0) (mx := none) (by simp)
      (.cons (.lit c!"(") (.cons (.call (n := c!"main") rfl h1) (.cons (.lit c!")") .nil))) h2
    have h4 : '(' :: (u ++ ')' :: v) = (c!"(" ++ (u ++ (c!")" ++ []))) ++ v := by simp
    exact h4 ▸ ⟨_, h3⟩

/-- **C63**, an example with the context-free reading: the rules `main = ('(' main ')')*` accept exactly the texts
of balanced parentheses. -/
theorem C63_balanced : ∃ R, rulesFromPeg c!"main = ('(' main ')')*\n" = .ok R ∧
    ∀ s, (∃ t, parse s R = .ok t) ↔ balanced 0 s = true := by
  refine ⟨_, dyck_rules, fun s => ?_⟩
  rw [balanced_iff]
  constructor
  · rintro ⟨t, h⟩
    exact (groups_of_gen (C63_sound h)).1 (.inr rfl)
  · intro h
    obtain ⟨ns, hg⟩ := gen_of_groups h
    refine ⟨.rule c!"main" ns, (C63_context_free dyck_wf dyck_ll1.1 dyck_ll1.2 _ _).2 ⟨?_, .call rfl hg⟩⟩
    clear hg
    induction h with
    | nil => intro c hc; cases hc
    | cons _ _ ih1 ih2 =>
      intro c hc
      simp only [List.mem_cons, List.mem_append] at hc
      rcases hc with rfl | hc | rfl | hc
      · decide
      · exact ih1 c hc
      · decide
      · exact ih2 c hc

example : ∃ R, rulesFromPeg c!"main = ('(' main ')')*\n" = .ok R ∧
    (∃ t, parse c!"(()())()" R = .ok t) ∧ ∀ t, parse c!"(()))(" R ≠ .ok t := by
  obtain ⟨R, h1, h2⟩ := C63_balanced
  exact ⟨R, h1, (h2 _).2 (by decide), fun t h => absurd ((h2 _).1 ⟨t, h⟩) (by decide)⟩

/-- "(()" is not derived, so it is an error; "()" has one derivation -/
example : (∃ e, parse c!"(()" exDyck = .err e) ∧ ∀ t, Gen (denotes exDyck) (.ruleName c!"main") c!"()" [t] →
    t = .rule c!"main" [.val c!"(", .rule c!"main" [], .val c!")"] := by
  constructor
  · refine (C63_not_derived dyck_wf dyck_ll1.1 dyck_ll1.2 (by decide)).2 fun t h => ?_
    exact absurd (balanced_iff.2 ((groups_of_gen h).1 (.inr rfl))) (by decide)
  · intro t h
    refine C63_unambiguous dyck_wf dyck_ll1.1 dyck_ll1.2 h (C63_sound ?_)
    exact parse_of_fuel (f := 20) (by decide +kernel) (by simp)

/-- the basic example of README.md is such a grammar -/
example : WellFormed (denotes basicRules) ∧
    (∀ n e, denotes basicRules n = some e → Plain (denotes basicRules) e) ∧ LL1 (denotes basicRules) :=
  ⟨wf_of_check (nul := []) (ranks := [c!"number", c!"letter", c!"letter_or_num", c!"main"]) (by decide +kernel),
    ll1_of_check (nul := [])
      (fst := fun n => if n = c!"number" then [('0', '9')] else if n = c!"letter" then [('a', 'z'), ('A', 'Z')] else
        [('a', 'z'), ('A', 'Z'), ('0', '9')])
      (fol := fun n => if n = c!"main" then [none] else [none, some ('a', 'z'), some ('A', 'Z'), some ('0', '9')]) (by decide +kernel)⟩

end DP
