import Verif.Proofs.Stack
import Verif.Proofs.PegDeep
import Verif.Props.CalcCost
import Verif.Props.PegCost

/-!
# C84: the call stack

The parser calls itself, and the stack that the calls pile up on is limited: a Rust program that exceeds it is aborted. The sizes of the frames
are not known here, so everything holds for all sizes; where calls pile up without end `parse_expr` has to take at least one byte.
-/

namespace DP
open Spec Spec.Readme Stack

/-! ### The answers -/

theorem stackF_cases (F : Frames) (fuel d : Nat) (s : Str) (R : SetOfRules) :
    (parseStackF F fuel d s R = none ∧ d < F.rule + (used fuel s R).depth * F.most) ∨
    (parseStackF F fuel d s R = some (parseWithDebugF fuel s R false) ∧ (used fuel s R).depth * F.expr ≤ d) := by
  have h := (fits (F := F) (R := R) fuel).1 d (.init s) c!"main"
  have he := (meter_erase R fuel).1 (.init s) c!"main"
  unfold parseStackF parseWithDebugF used parseMain
  rcases h with ⟨h1, h2⟩ | ⟨h1, h2⟩
  · refine .inr ⟨?_, h2⟩
    rw [h1, he]
    simp only [Bool.false_eq_true, if_false]
    rcases parseRuleName R fuel (.init s) c!"main" with x | x | _ | _
    · simp only
      split
      · rfl
      · split <;> rename_i hx <;> rw [hx]
    all_goals rfl
  · rw [h1]; exact .inl ⟨rfl, h2⟩

/-- **C84**: if the stack suffices, the answer is that of `parse`, including that there is none. -/
theorem C84_same_answer {F : Frames} {d : Nat} {s : Str} {R : SetOfRules} {o : Out Error Node} (h : parseStack F d s R = some o) :
    parse s R = o := by
  unfold parseStack at h
  split at h
  · cases h
  · rename_i hn
    injection h with h
    rw [← h]
    unfold parse
    congr 1
    funext fuel
    rcases stackF_cases F fuel d s R with ⟨h1, _⟩ | ⟨h1, _⟩
    · exact absurd ⟨fuel, h1⟩ hn
    · rw [h1]; rfl

theorem overflow_iff {F : Frames} {d : Nat} {s : Str} {R : SetOfRules} :
    parseStack F d s R = none ↔ ∃ fuel, parseStackF F fuel d s R = none := by
  unfold parseStack
  split
  · rename_i h; exact ⟨fun _ => h, fun _ => rfl⟩
  · rename_i h; exact ⟨fun h' => (by cases h'), fun h' => absurd h' h⟩

theorem overflow_or {F : Frames} {d : Nat} {s : Str} {R : SetOfRules} :
    parseStack F d s R = none ∨ parseStack F d s R = some (parse s R) := by
  cases h : parseStack F d s R with
  | none => exact .inl rfl
  | some o => rw [C84_same_answer h]; exact .inr rfl

theorem stackF_none {F : Frames} {fuel d : Nat} {s : Str} {R : SetOfRules} :
    parseStackF F fuel d s R = none ↔ stackRuleName F R fuel d (.init s) c!"main" = none := by
  unfold parseStackF
  rcases stackRuleName F R fuel d (.init s) c!"main" with _ | x | x | _ | _
  · simp
  · simp only [reduceCtorEq, iff_false]
    split
    · simp
    · split <;> simp
  all_goals simp

/-- **C84**: more stack never does harm. -/
theorem C84_more_stack {F : Frames} {d d' : Nat} {s : Str} {R : SetOfRules} {o : Out Error Node} (hd : d ≤ d')
    (h : parseStack F d s R = some o) : parseStack F d' s R = some o := by
  rcases overflow_or (F := F) (d := d') (s := s) (R := R) with h' | h'
  · obtain ⟨f, hf⟩ := overflow_iff.1 h'
    rw [stackF_none] at hf
    exfalso
    have : parseStack F d s R = none := by
      refine overflow_iff.2 ⟨f, stackF_none.2 ?_⟩
      rcases (grows (F := F) (R := R) true f).1 d d' (.init s) c!"main" hd (by simp) with ⟨_, h1⟩ | ⟨h1, _⟩ | h1
      · exact h1
      · cases h1
      · rw [h1]; exact hf
    rw [h] at this
    cases this
  · rw [h', C84_same_answer h]

theorem overflow_stays {F : Frames} {d : Nat} {s : Str} {R : SetOfRules} {f g : Nat} (hfg : f ≤ g)
    (h : stackRuleName F R f d (.init s) c!"main" = none) : stackRuleName F R g d (.init s) c!"main" = none := by
  obtain ⟨k, rfl⟩ := Nat.exists_eq_add_of_le hfg
  induction k with
  | zero => exact h
  | succ k ih =>
    rcases (grows (F := F) (R := R) false (f + k)).1 d d (.init s) c!"main" (Nat.le_refl _) (fun _ => rfl) with ⟨h1, _⟩ | ⟨_, h1⟩ | h1
    · cases h1
    · rw [ih (by omega)] at h1; cases h1
    · rw [ih (by omega)] at h1; exact h1.symm

/-- **C84**: a parse that returns needs a definite number of bytes, given by how deep its calls nest, up to the sizes of the frames:
with less it overflows, with as much or more it gives its answer. -/
theorem C84_need {s : Str} {R : SetOfRules} {m : Meter} (F : Frames) (h : Uses s R m) :
    ∃ need, m.depth * F.expr ≤ need ∧ need ≤ F.rule + m.depth * F.most ∧
      ∀ d, parseStack F d s R = if d < need then none else some (parse s R) := by
  obtain ⟨g, hg, rfl⟩ := h
  have hlow : ∀ d, parseStack F d s R ≠ none → (used g s R).depth * F.expr ≤ d := by
    intro d hd
    rcases stackF_cases F g d s R with ⟨h1, _⟩ | ⟨_, h1⟩
    · exact absurd (overflow_iff.2 ⟨g, h1⟩) hd
    · exact h1
  have hhigh : parseStack F (F.rule + (used g s R).depth * F.most) s R ≠ none := by
    intro hd
    obtain ⟨f, hf⟩ := overflow_iff.1 hd
    rw [stackF_none] at hf
    have h1 : stackRuleName F R g (F.rule + (used g s R).depth * F.most) (.init s) c!"main" = none := by
      rcases Nat.le_total f g with h | h
      · exact overflow_stays h hf
      · obtain ⟨k, rfl⟩ := Nat.exists_eq_add_of_le h
        clear h hd
        by_contra hx
        have hs : stackRuleName F R g (F.rule + (used g s R).depth * F.most) (.init s) c!"main" =
            some (parseRuleName R g (.init s) c!"main") := by
          rcases (fits (F := F) (R := R) g).1 (F.rule + (used g s R).depth * F.most) (.init s) c!"main" with ⟨h1, _⟩ | ⟨h1, _⟩
          · rw [h1, (meter_erase R g).1]
          · exact absurd h1 hx
        have : ∀ k, stackRuleName F R (g + k) (F.rule + (used g s R).depth * F.most) (.init s) c!"main" =
            some (parseRuleName R g (.init s) c!"main") := by
          intro k
          induction k with
          | zero => exact hs
          | succ k ih =>
            rcases (grows (F := F) (R := R) false (g + k)).1 _ _ (.init s) c!"main" (Nat.le_refl _) (fun _ => rfl) with ⟨h1, _⟩ | ⟨_, h1⟩ | h1
            · cases h1
            · rw [ih] at h1
              injection h1 with h1
              exact absurd h1 hg
            · rw [ih] at h1; exact h1.symm
        rw [this k] at hf
        cases hf
    rcases (fits (F := F) (R := R) g).1 (F.rule + (used g s R).depth * F.most) (.init s) c!"main" with ⟨h2, _⟩ | ⟨_, h2⟩
    · rw [h1] at h2; cases h2
    · exact absurd h2 (Nat.lt_irrefl _)
  classical
  have hex : ∃ d, parseStack F d s R ≠ none := ⟨_, hhigh⟩
  refine ⟨Nat.find hex, hlow _ (Nat.find_spec hex), Nat.find_min' hex hhigh, fun d => ?_⟩
  split
  · rename_i hd
    by_contra hx
    exact Nat.find_min hex hd hx
  · rename_i hd
    rcases overflow_or (F := F) (d := Nat.find hex) (s := s) (R := R) with h | h
    · exact absurd h (Nat.find_spec hex)
    · exact C84_more_stack (by omega) h

theorem enough_stack {F : Frames} {d : Nat} {s : Str} {R : SetOfRules} (h : ∀ f, F.rule + (used f s R).depth * F.most ≤ d) :
    parseStack F d s R = some (parse s R) := by
  rcases overflow_or (F := F) (d := d) (s := s) (R := R) with h' | h'
  · obtain ⟨f, hf⟩ := overflow_iff.1 h'
    rcases stackF_cases F f d s R with ⟨_, h1⟩ | ⟨h1, _⟩
    · have := h f; omega
    · rw [h1] at hf; cases hf
  · exact h'

/-! ### Rules that do not return -/

/-- **C84**: a parse that does not return, where no unbounded repetition has a body that can match the empty text (so left
recursion is the reason), overflows every stack. -/
theorem C84_left_recursion {F : Frames} (hF : 0 < F.expr) {s : Str} {R : SetOfRules} (h : parse s R = .diverge)
    (hrep : ∀ n e b mn, denotes R n = some e → Sub (.rep b mn none) e → ¬ CanEmpty (denotes R) b) (d : Nat) :
    parseStack F d s R = none := by
  obtain ⟨f, hf⟩ := C52_endless_stack h hrep (d + 1)
  refine overflow_iff.2 ⟨f, ?_⟩
  rcases stackF_cases F f d s R with ⟨h1, _⟩ | ⟨_, h1⟩
  · exact h1
  · have h2 := hf f (Nat.le_refl _)
    have h3 : (used f s R).depth * 1 ≤ (used f s R).depth * F.expr := Nat.mul_le_mul_left _ hF
    omega

/-- **C84**: a parse that does not return, without left recursion, does not overflow a stack that is large enough: it goes on for ever. -/
theorem C84_endless_loop (F : Frames) {s : Str} {R : SetOfRules} (h : parse s R = .diverge)
    (hlr : ∀ n, ¬ Relation.TransGen (LeftStep (denotes R)) n n) : ∃ d₀, ∀ d, d₀ ≤ d → parseStack F d s R = some .diverge := by
  obtain ⟨⟨k, hk⟩, _⟩ := C52_endless_loop h hlr
  refine ⟨F.rule + k * F.most, fun d hd => ?_⟩
  rw [← h]
  refine enough_stack fun f => ?_
  have := Nat.mul_le_mul_right F.most (hk f)
  omega

/-! ### How much is enough -/

/-- **C84**: without left recursion, stack in proportion to the text suffices. -/
theorem C84_linear_stack (F : Frames) {R : SetOfRules} (hlr : ∀ n, ¬ Relation.TransGen (LeftStep (denotes R)) n n) :
    ∃ K, ∀ s d, K * (s.length + 1) ≤ d → parseStack F d s R = some (parse s R) := by
  obtain ⟨H, hH⟩ := rules_bound height R
  refine ⟨F.rule + R.entries.length * H * F.most, fun s d hd => enough_stack fun f => ?_⟩
  have h1 := Nat.mul_le_mul_right F.most (C52_depth hlr hH f s)
  have h2 : (s.length + 1) * (R.entries.length * H) * F.most = R.entries.length * H * F.most * (s.length + 1) := by
    rw [Nat.mul_assoc, Nat.mul_comm]
  rw [Nat.add_mul, Nat.mul_add F.rule] at hd
  omega

/-- **C84**: without any recursion, a stack of some size suffices for all texts. -/
theorem C84_fixed_stack (F : Frames) {R : SetOfRules}
    (hr : ∀ n, ¬ Relation.TransGen (fun n m => ∃ e, denotes R n = some e ∧ Refs e m) n n) :
    ∃ d₀, ∀ s d, d₀ ≤ d → parseStack F d s R = some (parse s R) := by
  obtain ⟨H, hH⟩ := rules_bound height R
  refine ⟨F.rule + R.entries.length * H * F.most, fun s d hd => enough_stack fun f => ?_⟩
  have h1 := Nat.mul_le_mul_right F.most (C52_depth_without_recursion hr hH f s)
  omega

/-- **C84**: only left recursion overflows every stack. -/
theorem C84_every_stack {F : Frames} {s : Str} {R : SetOfRules} (h : ∀ d, parseStack F d s R = none) :
    parse s R = .diverge ∧ ∃ n, Relation.TransGen (LeftStep (denotes R)) n n := by
  constructor
  · by_contra hx
    obtain ⟨m, hm⟩ := (C53_uses s R).1.mp hx
    obtain ⟨need, _, _, h1⟩ := C84_need F hm
    have := h1 need
    rw [h, if_neg (by omega)] at this
    cases this
  · by_contra hx
    obtain ⟨K, hK⟩ := C84_linear_stack F (R := R) (not_exists.1 hx)
    have := hK s _ (Nat.le_refl _)
    rw [h] at this
    cases this

/-! ### The calculator and the PEG texts -/

theorem calc_nest {r : Str} {c d} (h : Effort GC (.one (.ruleName c!"expr")) ('(' :: r) c d) :
    ∃ c' d', Effort GC (.one (.ruleName c!"expr")) r c' d' ∧ d' + 9 ≤ d := by
  obtain ⟨_, d1, h, l1⟩ := deep_rule gc_expr h
  obtain ⟨_, d2, h, l2⟩ := deep_or h
  obtain ⟨_, d3, h, l3⟩ := deep_first h
  obtain ⟨_, d4, h, l4⟩ := deep_and h
  obtain ⟨_, d5, h, l5⟩ := deep_head h
  obtain ⟨_, d6, h, l6⟩ := deep_rule gc_add h
  obtain ⟨_, d7, h, l7⟩ := deep_and h
  obtain ⟨_, d8, h, l8⟩ := deep_head h
  obtain ⟨_, d9, h, l9⟩ := deep_rule gc_fact h
  obtain ⟨_, d10, h, l10⟩ := deep_rule gc_portion h
  obtain ⟨_, d11, h, l11⟩ := deep_or h
  obtain ⟨_, d12, h, l12⟩ := deep_first h
  obtain ⟨_, d13, h, l13⟩ := deep_and h
  obtain ⟨_, d14, h, l14⟩ := deep_tail h (.lit_ok c!"(" r)
  obtain ⟨_, d15, h, l15⟩ := deep_head h
  exact ⟨_, _, h, by omega⟩

theorem calc_nests {q : Str} (n : Nat) {c d} (h : Effort GC (.one (.ruleName c!"expr")) (List.replicate n '(' ++ q) c d) : 9 * n ≤ d := by
  induction n generalizing c d with
  | zero => omega
  | succ n ih =>
    obtain ⟨_, d', h', hd⟩ := calc_nest h
    have := ih h'
    omega

/-- `((...(1)...))` -/
def nestedOne (n : Nat) : Str := List.replicate n '(' ++ c!"1" ++ List.replicate n ')'

theorem nestedOne_addition (n : Nat) : ∃ t, Addition (nestedOne n) t := by
  induction n with
  | zero =>
    have h1 := Addition.mk (Product.mk (one_digit (c := '1') (by decide)) .nil) .nil
    rw [List.append_nil, List.append_nil] at h1
    exact ⟨_, h1⟩
  | succ n ih =>
    obtain ⟨t, h⟩ := ih
    have h1 := Addition.mk (Product.mk (Factor.parens h) .nil) .nil
    rw [List.append_nil, List.append_nil] at h1
    rw [show nestedOne (n + 1) = '(' :: nestedOne n ++ [')'] from by
      simp only [nestedOne, List.replicate_succ', List.cons_append]
      rw [← List.replicate_succ', List.replicate_succ]
      simp]
    exact ⟨_, h1⟩

/-- **C84**: however large the stack is, `((...(1)...))` with enough parentheses is an expression that the calculator of README.md accepts, and on
which it overflows the stack. -/
theorem C84_calculator (F : Frames) : ∃ R, rulesFromPeg Readme.calculator = .ok R ∧ ∀ d n, d < 9 * n * F.expr →
    (∃ t, parse (nestedOne n) R = .ok t) ∧ parseStack F d (nestedOne n) R = none := by
  refine ⟨_, calculator_rules, fun d n hd => ?_⟩
  obtain ⟨t, ht⟩ := nestedOne_addition n
  have hp : parse (nestedOne n) calculatorRules = .ok (.rule c!"main" [blank 0, t, blank 0]) := by
    rw [parse_iff, calc_main]
    exact ⟨addition_ascii ht, 0, nestedOne n, t, 0, by simp [spaces], ht, rfl⟩
  refine ⟨⟨_, hp⟩, ?_⟩
  obtain ⟨m, hm⟩ := (C53_uses (nestedOne n) calculatorRules).1.mp (by rw [hp]; simp)
  obtain ⟨need, h1, _, h2⟩ := C84_need F hm
  have he := (C53_effort (addition_ascii ht) _ _).1 hm
  obtain ⟨_, d1, h, l1⟩ := deep_rule gc_main he
  obtain ⟨_, d2, h, l2⟩ := deep_and h
  have hws : Peg GC (.ruleName c!"_") (nestedOne n) (.ok (nestedOne n) [blank 0]) := by
    cases n with
    | zero => exact .call_ok gc_ws (.rep_stop (by simp) (.lit_fail _ _ (by simp [nestedOne])))
    | succ n => exact .call_ok gc_ws (.rep_stop (by simp) (.lit_fail _ _ (by simp [nestedOne, List.replicate_succ])))
  obtain ⟨_, d3, h, l3⟩ := deep_tail h hws
  obtain ⟨_, d4, h, l4⟩ := deep_head h
  have h5 : 9 * n ≤ d4 := calc_nests (q := c!"1" ++ List.replicate n ')') n (by rw [← List.append_assoc]; exact h)
  have h6 : 9 * n * F.expr ≤ m.depth * F.expr := Nat.mul_le_mul_right _ (by omega)
  rw [h2, if_pos (by omega)]

/-- **C84**: and reading `main=((...(.)...))`, which means `main=.`, overflows it as well. -/
theorem C84_rules_from_peg (F : Frames) (d n : Nat) (hd : d < 13 * n * F.expr) :
    let s := c!"main=" ++ List.replicate (n + 1) '(' ++ c!"." ++ List.replicate (n + 1) ')' ++ c!"\n"
    rulesFromPeg s = .ok ⟨[(c!"main", .simple .dot)]⟩ ∧ parseStack F d s PegRules.parsePeg = none := by
  obtain ⟨h1, u, h2, h3⟩ := C71_depth_attained n
  refine ⟨h1, ?_⟩
  obtain ⟨need, h4, _, h5⟩ := C84_need F h2
  have h6 : 13 * n * F.expr ≤ u.depth * F.expr := Nat.mul_le_mul_right _ (by omega)
  rw [h5, if_pos (by omega)]

/-! ### examples -/

/-- frames as they may be -/
def exFrames : Frames := ⟨160, 96, 400, 320, 340, 210, 350, 48⟩

theorem exFrames_once (d : Nat) :
    (4624 ≤ d → parseStack exFrames d c!"((a]]" exOnce = some (parse c!"((a]]" exOnce)) ∧
    (d < 864 → parseStack exFrames d c!"((a]]" exOnce = none) := by
  obtain ⟨need, h1, h2, h3⟩ := C84_need exFrames (s := c!"((a]]") (R := exOnce) (m := ⟨18, 9⟩) ⟨40, by decide +kernel, by decide +kernel⟩
  have h4 : exFrames.expr = 96 := rfl
  have h5 : exFrames.most = 496 := rfl
  have h6 : exFrames.rule = 160 := rfl
  simp only [h4, h5, h6] at h1 h2
  exact ⟨fun h => by rw [h3, if_neg (by omega)], fun h => by rw [h3, if_pos (by omega)]⟩

example : parseStack exFrames 3000 c!"((a]]" exOnce = none := overflow_iff.2 ⟨40, by decide +kernel⟩

example (o : Out Error Node) (h : parseStack exFrames 4624 c!"((a]]" exOnce = some o) : ∃ t, o = .ok t := by
  rw [← C84_same_answer h]
  have hb : (match parseWithDebugF 40 c!"((a]]" exOnce false with | .ok _ => true | _ => false) = true := by decide +kernel
  cases ht : parseWithDebugF 40 c!"((a]]" exOnce false with
  | ok t => exact ⟨t, parse_of_fuel ht (by simp)⟩
  | _ => rw [ht] at hb; cases hb

example : parseStack exFrames 8000000 c!"((a]]" exOnce = some (parse c!"((a]]" exOnce) :=
  C84_more_stack (d := 4624) (by decide) ((exFrames_once _).1 (by decide))

/-- left recursion overflows every stack -/
theorem exLeft_overflows {s : Str} (ha : Ascii s) (d : Nat) : parseStack exFrames d s ⟨[(c!"main",
    .or [.and [.ruleName c!"main", .simple (.literal c!"a")], .simple (.literal c!"b")])]⟩ = none := by
  refine C84_left_recursion (by decide) (C13_false_left_recursion ha) ?_ d
  intro n e b mn hg hs
  simp only [denotes, grammar, List.lookup_cons, List.lookup_nil] at hg
  split at hg
  · simp only [Option.map_some, effective, effectives, Option.some.injEq] at hg
    subst hg
    cases hs with
    | or hm hs =>
      simp only [List.mem_cons, List.not_mem_nil, or_false] at hm
      rcases hm with rfl | rfl
      · cases hs with
        | and hm hs =>
          simp only [List.mem_cons, List.not_mem_nil, or_false] at hm
          rcases hm with rfl | rfl <;> cases hs
      · cases hs
  · cases hg

example : ∃ n, Relation.TransGen (LeftStep (denotes ⟨[(c!"main",
    .or [.and [.ruleName c!"main", .simple (.literal c!"a")], .simple (.literal c!"b")])]⟩)) n n :=
  (C84_every_stack (F := exFrames) (s := c!"b") fun d => exLeft_overflows (by decide) d).2

/-- a repetition of the empty text goes on for ever -/
example : ∃ d₀, ∀ d, d₀ ≤ d →
    parseStack exFrames d c!"b" ⟨[(c!"main", .rep (.rep (.simple (.literal c!"a")) 0 (some 1)) 0 none)]⟩ = some .diverge := by
  refine C84_endless_loop exFrames C13_false_empty_repetition ?_
  have hno : ∀ n m, ¬ LeftStep (denotes ⟨[(c!"main", .rep (.rep (.simple (.literal c!"a")) 0 (some 1)) 0 none)]⟩) n m := by
    rintro n m ⟨e, hg, hm⟩
    simp only [denotes, grammar, List.lookup_cons, List.lookup_nil] at hg
    split at hg
    · simp only [Option.map_some, effective, Option.some.injEq] at hg
      subst hg
      cases hm with
      | rep hm => cases hm with
        | rep hm => cases hm
    · cases hg
  intro n h
  cases h with
  | single h => exact hno _ _ h
  | tail _ h => exact hno _ _ h

example : ∃ K, ∀ s d, K * (s.length + 1) ≤ d → parseStack exFrames d s calculatorRules = some (parse s calculatorRules) :=
  C84_linear_stack exFrames calculator_wf.no_left_recursion

/-- `main = [a-z]* "."` -/
example : ∃ d₀, ∀ s d, d₀ ≤ d → parseStack exFrames d s ⟨[(c!"main", .and [.rep (.simple (.mtch [] [('a', 'z')])) 0 none,
    .simple (.literal c!".")])]⟩ = some (parse s ⟨[(c!"main", .and [.rep (.simple (.mtch [] [('a', 'z')])) 0 none, .simple (.literal c!".")])]⟩) := by
  refine C84_fixed_stack exFrames ?_
  have hno : ∀ n m, ¬ ∃ e, denotes ⟨[(c!"main", .and [.rep (.simple (.mtch [] [('a', 'z')])) 0 none, .simple (.literal c!".")])]⟩ n = some e ∧
      Refs e m := by
    rintro n m ⟨e, hg, hm⟩
    simp only [denotes, grammar, List.lookup_cons, List.lookup_nil] at hg
    split at hg
    · simp only [Option.map_some, effective, effectives, Option.some.injEq] at hg
      subst hg
      cases hm with
      | and hx hm =>
        simp only [List.mem_cons, List.not_mem_nil, or_false] at hx
        rcases hx with rfl | rfl
        · cases hm with | rep hm => cases hm
        · cases hm
    · cases hg
  intro n h
  cases h with
  | single h => exact hno _ _ h
  | tail _ h => exact hno _ _ h

/-- ten thousand parentheses overflow the 8 MB of a main thread -/
example : ∃ R, rulesFromPeg Readme.calculator = .ok R ∧ parseStack exFrames 8388608 (nestedOne 10000) R = none := by
  obtain ⟨R, h, h1⟩ := C84_calculator exFrames
  exact ⟨R, h, (h1 8388608 10000 (by decide)).2⟩

example : parseStack exFrames 2400 c!"main=(((.)))\n" PegRules.parsePeg = none := (C84_rules_from_peg exFrames 2400 2 (by decide)).2

end DP
