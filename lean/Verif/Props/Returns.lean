/-
Property C80: on a given text, when `parse` returns and how to tell.
-/
import Verif.Proofs.Returns
import Verif.Props.Combine
import Verif.Props.Effort

namespace DP
open Spec

theorem outcome_returns {s : Str} {R : SetOfRules} {o} (ho : Peg (denotes R) (.ruleName c!"main") s o) : parse s R ≠ .diverge := by
  intro hd
  rw [parse_diverge_iff] at hd
  have hr : runRule R (Status.init s) c!"main" = .diverge := by
    rcases runRule_elim R (Status.init s) c!"main" with hx | ⟨f, hx⟩
    · exact hx
    · rw [← hx]; exact hd f
  rcases main_complete ho with hp | hc
  · rw [hr] at hp; cases hp
  · rw [hr] at hc
    cases o <;> obtain ⟨_, h1, _⟩ := hc <;> cases h1

/-- **C80**: the two causes of C13 are the only ones, on any text: if `parse` does not return then matching `main` against
it comes to a rule that (possibly through others) calls itself again at the same place, or to an unbounded repetition of
something that matches there without consuming. -/
theorem C80_causes {s : Str} {R : SetOfRules} (h : parse s R = .diverge) :
    (∃ n body t, Visits (denotes R) (.ruleName c!"main") s (.ruleName n) t ∧ denotes R n = some body ∧
      Visits (denotes R) body t (.ruleName n) t) ∨
    (∃ b mn t ns, Visits (denotes R) (.ruleName c!"main") s (.rep b mn none) t ∧ Peg (denotes R) b t (.ok t ns)) := by
  by_contra hn
  rw [not_or] at hn
  obtain ⟨h1, h2⟩ := hn
  obtain ⟨o, ho⟩ := free_ends (G := denotes R) (l := R.entries.map Prod.fst) (fun n e hg => mem_keys hg) (.ruleName c!"main") s []
    List.nodup_nil (by simp) avoids_nil
    ⟨fun n body t hv hg hv' => h1 ⟨n, body, t, hv, hg, hv'⟩, fun b mn t ns hv hp => h2 ⟨b, mn, t, ns, hv, hp⟩⟩
  exact outcome_returns ho h

/-- **C80**: on ASCII text they are exactly the causes. -/
theorem C80_diverges_iff {s : Str} (ha : Ascii s) (R : SetOfRules) : parse s R = .diverge ↔
    (∃ n body t, Visits (denotes R) (.ruleName c!"main") s (.ruleName n) t ∧ denotes R n = some body ∧
      Visits (denotes R) body t (.ruleName n) t) ∨
    (∃ b mn t ns, Visits (denotes R) (.ruleName c!"main") s (.rep b mn none) t ∧ Peg (denotes R) b t (.ok t ns)) := by
  refine ⟨C80_causes, ?_⟩
  rintro (⟨n, body, t, hv, hg, hv'⟩ | ⟨b, mn, t, ns, hv, hp⟩)
  · exact C13_left_recursion_diverges ha hv hg hv'
  · exact C13_empty_repetition_diverges ha hv hp

/-- **C80**: a parse that returns nests its calls no deeper than C52 says, whatever the rules are: left recursion or not. -/
theorem C80_depth {R : SetOfRules} {H : Nat} (hH : ∀ n e, R.get n = some e → height e ≤ H) {s : Str} (ha : Ascii s) {m : Meter}
    (h : Uses s R m) : m.depth ≤ (s.length + 1) * (R.entries.length * H) := by
  have h1 := effort_depth (G := denotes R) (l := R.entries.map Prod.fst) (H := H) (fun n e hg => ⟨mem_keys hg, by
    obtain ⟨e', h1, rfl⟩ := Option.map_eq_some_iff.1 hg
    rw [height_effective]; exact hH n e' h1⟩) ((C53_effort ha R m).1 h) _ rfl [] List.nodup_nil (by simp) avoids_nil
  simp only [taskHeight, height, List.length_map, List.length_nil, Nat.sub_zero] at h1
  rw [Nat.add_mul, Nat.one_mul]
  omega

/-- **C80**: a parse that returns makes no more calls than C53 says, whatever the rules are: empty repetitions or not. -/
theorem C80_calls {R : SetOfRules} {K : Nat} (hW : ∀ n e, R.get n = some e → width e ≤ K) {s : Str} (hK : s.length + 1 ≤ K)
    (ha : Ascii s) {m : Meter} (h : Uses s R m) : m.calls ≤ (K + 1) ^ m.depth := by
  have h0 := (C53_effort ha R m).1 h
  have hW' : ∀ n e, denotes R n = some e → width e ≤ K := by
    intro n e hg
    obtain ⟨e', h1, rfl⟩ := Option.map_eq_some_iff.1 hg
    exact (width_effective e').trans (hW n e' h1)
  obtain ⟨c, d⟩ := m
  cases h0 with
  | call hg h1 => have := effort_calls hW' h1 hK (hW' _ _ hg); simpa [taskParts] using this
  | missing hg => exact Nat.zero_le _

/-- the height of the highest rule -/
def highest (R : SetOfRules) : Nat := (R.entries.map fun x => height x.2).foldr max 0

/-- the width of the widest rule -/
def widest (R : SetOfRules) : Nat := (R.entries.map fun x => width x.2).foldr max 0

theorem le_foldr_max (g : Expr → Nat) {R : SetOfRules} {n e} (h : R.get n = some e) :
    g e ≤ (R.entries.map fun x => g x.2).foldr max 0 := by
  obtain ⟨es⟩ := R
  induction es with
  | nil => simp [SetOfRules.get] at h
  | cons x xs ih =>
    simp only [SetOfRules.get] at h
    rw [List.lookup_cons] at h
    simp only [List.map_cons, List.foldr_cons]
    split at h
    · cases h; omega
    · have := ih h; simp only at this; omega

/-- how many calls to wait for, with `R` on a text of `len` characters -/
def patience (R : SetOfRules) (len : Nat) : Nat :=
  (max (widest R) (len + 1) + 1) ^ ((len + 1) * (R.entries.length * highest R))

/-- **C80**: a parse that does not return can be told from one that does. A parse that returns makes no more than
`patience` calls, which depends on the rules and on the length of the text alone; one that does not return makes more. -/
theorem C80_patience {s : Str} (ha : Ascii s) (R : SetOfRules) :
    parse s R = .diverge ↔ ∃ fuel, patience R s.length < (used fuel s R).calls := by
  constructor
  · intro h
    refine ⟨2 * patience R s.length + 2, ?_⟩
    have := used_busy h (2 * patience R s.length + 2)
    omega
  · rintro ⟨fuel, h⟩
    by_contra hd
    obtain ⟨m, hm⟩ := (C53_uses s R).1.1 hd
    have h1 := C80_depth (H := highest R) (fun n e hg => le_foldr_max height hg) ha hm
    have h2 := C80_calls (K := max (widest R) (s.length + 1))
      (fun n e hg => (le_foldr_max width hg).trans (Nat.le_max_left _ _)) (Nat.le_max_right _ _) ha hm
    have h3 : m.calls ≤ patience R s.length := h2.trans (Nat.pow_le_pow_right (by omega) h1)
    obtain ⟨f, hf, rfl⟩ := hm
    have h4 := (meter_within R (Nat.le_max_left fuel f) (.init s) c!"main").1
    rw [meter_mono R (Nat.le_max_right fuel f) hf] at h4
    have h5 : (used fuel s R).calls ≤ (used f s R).calls := h4
    omega

/-- Also by the depth: a parse that nests its calls deeper than C52 says does not return. -/
theorem C80_too_deep {R : SetOfRules} {s : Str} (ha : Ascii s) {fuel : Nat}
    (h : (s.length + 1) * (R.entries.length * highest R) < (used fuel s R).depth) : parse s R = .diverge := by
  by_contra hd
  obtain ⟨m, hm⟩ := (C53_uses s R).1.1 hd
  have h1 := C80_depth (H := highest R) (fun n e hg => le_foldr_max height hg) ha hm
  obtain ⟨f, hf, rfl⟩ := hm
  have h4 := (meter_within R (Nat.le_max_left fuel f) (.init s) c!"main").2
  rw [meter_mono R (Nat.le_max_right fuel f) hf] at h4
  have h5 : (used fuel s R).depth ≤ (used f s R).depth := h4
  omega

/-- The decision: run the parser until it returns or has been patient for long enough. -/
def returns (R : SetOfRules) (s : Str) : Bool :=
  match parseMain R (2 * patience R s.length + 2) (.init s) with
  | .diverge => false
  | _ => true

/-- **C80**: whether `parse` returns on a given text is decidable (on every text it is not: C78). -/
theorem C80_decides {s : Str} (ha : Ascii s) (R : SetOfRules) : returns R s = true ↔ parse s R ≠ .diverge := by
  constructor
  · intro h hd
    rw [returns, parse_diverge_iff.1 hd] at h
    cases h
  · intro h
    rw [returns]
    split
    · rename_i hx
      refine absurd ((C80_patience ha R).2 ⟨2 * patience R s.length + 2, ?_⟩) h
      have := (meter_busy R (2 * patience R s.length + 2)).1 (.init s) c!"main" (by rw [(meter_erase R _).1]; exact hx)
      have h2 : 2 * patience R s.length + 2 ≤ 2 * (used (2 * patience R s.length + 2) s R).calls + 1 := this
      omega
    · rfl

/-! ### an example -/

/-- `main = "b" / main "a"` -/
def exLate : SetOfRules := ⟨[(c!"main", .or [.simple (.literal c!"b"), .and [.ruleName c!"main", .simple (.literal c!"a")]])]⟩

/-- it returns exactly on the texts that begin with "b" -/
example {s : Str} (ha : Ascii s) : parse s exLate ≠ .diverge ↔ s.head? = some 'b' := by
  constructor
  · intro h
    by_contra hs
    refine h ((C80_diverges_iff ha _).2 (Or.inl ⟨c!"main", _, s, .refl _ _, rfl, .or_tail (.lit_fail c!"b" s ?_) (.or_head (.and_head (.refl _ _)))⟩))
    rintro ⟨r, rfl⟩
    exact hs rfl
  · intro h
    cases s with
    | nil => cases h
    | cons c r => cases h; exact (returns_iff ha).2 ⟨_, .call_ok rfl (.or_ok (.lit_ok c!"b" r))⟩

example : highest exLate = 3 ∧ widest exLate = 2 ∧ patience exLate 0 = 3 ^ 3 := by decide

end DP
