/-
Property C69: without recursion, the nesting of the repetitions is the exponent of the work.
-/
import Verif.Proofs.Nesting
import Verif.Props.Linear
import Mathlib.Data.Nat.Choose.Basic

namespace DP
open Spec

/-- **C69**: if at most `d` unbounded repetitions are inside of one another (counting those of the rules that are called, none of
which is recursive), then the number of calls of `parse_expr` is at most proportional to the `d`-th power of the length. -/
theorem C69_power {R : SetOfRules} (hw : WellFormed (denotes R)) {d : Nat} (hd : Nested (denotes R) (.ruleName c!"main") d) :
    ∃ K, ∀ s, Ascii s → ∃ m, Uses s R m ∧ m.calls ≤ K * (s.length + 1) ^ d := by
  obtain ⟨K, hK⟩ := nested_costs (fun n e hg b mn hs => hw.no_empty_repetition n e b mn hg hs) hd (by intro b mn hs; cases hs)
  refine ⟨K, fun s ha => ?_⟩
  obtain ⟨m, h1⟩ := (C53_uses s R).1.mp (C12_well_formed_grammars_terminate hw s).1
  have := hK _ _ _ ((C53_effort ha R m).1 h1)
  exact ⟨m, h1, by omega⟩

/-- **C69**: without unbounded repetitions the work does not depend on the text at all. -/
theorem C69_constant {R : SetOfRules} (hw : WellFormed (denotes R)) (hd : Nested (denotes R) (.ruleName c!"main") 0) :
    ∃ K, ∀ s, Ascii s → ∃ m, Uses s R m ∧ m.calls ≤ K := by
  obtain ⟨K, hK⟩ := C69_power hw hd
  refine ⟨K, fun s ha => ?_⟩
  obtain ⟨m, h, hm⟩ := hK s ha
  exact ⟨m, h, by rwa [Nat.pow_zero, Nat.mul_one] at hm⟩

/-- **C69**: rules that are not recursive have such a nesting. -/
theorem C69_no_recursion {R : SetOfRules}
    (hr : ∀ n, ¬ Relation.TransGen (fun n m => ∃ e, denotes R n = some e ∧ Refs e m) n n) :
    ∃ d, Nested (denotes R) (.ruleName c!"main") d := by
  obtain ⟨rk, hrk, _⟩ := ranks_of_acyclic (r := fun n m => ∃ e, denotes R n = some e ∧ Refs e m) (R.entries.map Prod.fst)
    (fun a b ⟨_, h, _⟩ => mem_keys h) hr
  exact nested_rule (fun n m h => hrk n m h) _ _ rfl

/-! ### The exponent is the right one -/

/-- `""`, `("" "b" / "a")*`, `(("" "b" / "a")* "b" / "a")*`, ... -/
def stairs : Nat → Expr
  | 0 => .simple (.literal [])
  | d + 1 => .rep (.or [.and [stairs d, .simple (.literal c!"b")], .simple (.literal c!"a")]) 0 none

def exStairs (d : Nat) : SetOfRules := ⟨[(c!"main", stairs d)]⟩

theorem stairs_effective : ∀ d, effective (stairs d) = stairs d
  | 0 => rfl
  | d + 1 => by simp only [stairs, effective, effectives, stairs_effective d]

theorem stairs_main (d : Nat) : denotes (exStairs d) c!"main" = some (stairs d) := by
  have : grammar (exStairs d) c!"main" = some (stairs d) := rfl
  unfold denotes
  rw [this, Option.map_some, stairs_effective]

section
variable {G : Str → Option Expr}

abbrev as (n : Nat) : Str := List.replicate n 'a'

theorem stairs_no_b (k : Nat) : Peg G (.simple (.literal c!"b")) (as k) .fail := by
  refine .lit_fail _ _ ?_
  cases k <;> simp [as, List.replicate_succ]

theorem stairs_peg : ∀ d k, ∃ j ns, Peg G (stairs d) (as k) (.ok (as j) ns) ∧ (d ≠ 0 → j = 0)
  | 0, k => ⟨k, _, .lit_ok [] (as k), by simp⟩
  | d + 1, k => by
    have hand : ∀ k, Peg G (.and [stairs d, .simple (.literal c!"b")]) (as k) .fail := fun k => by
      obtain ⟨j, ns, h, _⟩ := stairs_peg d k
      exact .and_tail_fail h (.and_fail (stairs_no_b j))
    suffices ∃ ns, Peg G (stairs (d + 1)) (as k) (.ok (as 0) ns) by
      obtain ⟨ns, h⟩ := this
      exact ⟨0, ns, h, fun _ => rfl⟩
    induction k with
    | zero =>
      exact ⟨_, .rep_stop (by simp) (.or_next (hand 0) (.or_next (.lit_fail c!"a" [] (by decide)) (.or_nil _)))⟩
    | succ k ih =>
      obtain ⟨ns, h⟩ := ih
      exact ⟨_, .rep_more (by simp) (.or_next (hand (k + 1)) (.or_ok (.lit_ok c!"a" (as k)))) h⟩

theorem stairs_effort : ∀ d k, ∃ c dd, Effort G (.one (stairs d)) (as k) c dd ∧ k.choose d ≤ c
  | 0, k => ⟨1, 1, .simple _ _, by simp⟩
  | d + 1, k => by
    have hand : ∀ k, ∃ c dd, Effort G (.one (.and [stairs d, .simple (.literal c!"b")])) (as k) c dd ∧ k.choose d ≤ c ∧
        Peg G (.and [stairs d, .simple (.literal c!"b")]) (as k) .fail := fun k => by
      obtain ⟨c, dd, h, hc⟩ := stairs_effort d k
      obtain ⟨j, ns, hp, _⟩ := stairs_peg (G := G) d k
      exact ⟨_, _, .and (.seq_more h hp (.seq_stop (.simple _ _) (stairs_no_b j) (by simp))), by omega,
        .and_tail_fail hp (.and_fail (stairs_no_b j))⟩
    suffices ∃ c dd, Effort G (.loop (.or [.and [stairs d, .simple (.literal c!"b")], .simple (.literal c!"a")]) none) (as k) c dd ∧
        k.choose (d + 1) ≤ c by
      obtain ⟨c, dd, h, hc⟩ := this
      exact ⟨_, _, .rep h, by omega⟩
    induction k with
    | zero =>
      obtain ⟨c, dd, h, hc, hp⟩ := hand 0
      have hno : Peg G (.simple (.literal c!"a")) (as 0) .fail := .lit_fail c!"a" [] (by decide)
      exact ⟨_, _, .loop_stop (by simp) (.or (.alt_more h hp (.alt_more (.simple _ _) hno (.alt_nil _))))
        (.or_next hp (.or_next hno (.or_nil _))) (by simp), by simp⟩
    | succ k ih =>
      obtain ⟨c', dd', h', hc'⟩ := ih
      obtain ⟨c, dd, h, hc, hp⟩ := hand (k + 1)
      have hyes : Peg G (.simple (.literal c!"a")) (as (k + 1)) (.ok (as k) _) := .lit_ok c!"a" (as k)
      refine ⟨_, _, .loop_more (by simp) (.or (.alt_more h hp (.alt_stop (.simple _ _) hyes (by simp))))
        (.or_next hp (.or_ok hyes)) h', ?_⟩
      have h1 : (k + 1).choose (d + 1) = k.choose d + k.choose (d + 1) := Nat.choose_succ_succ k d
      have h2 : k.choose d ≤ (k + 1).choose d := Nat.choose_le_choose d (Nat.le_succ k)
      omega

theorem stairs_nested : ∀ d, Nested G (stairs d) d
  | 0 => .simple _ _
  | d + 1 => by
    refine .unbounded _ (.or ?_)
    intro e he
    simp only [List.mem_cons, List.not_mem_nil, or_false] at he
    rcases he with rfl | rfl
    · refine .and fun x hx => ?_
      simp only [List.mem_cons, List.not_mem_nil, or_false] at hx
      rcases hx with rfl | rfl
      · exact stairs_nested d
      · exact .simple _ _
    · exact .simple _ _

theorem stairs_bodies : ∀ d b mn, Sub (.rep b mn none) (stairs d) → ¬ CanEmpty G b
  | 0, b, mn, h => by cases h
  | d + 1, b, mn, h => by
    unfold stairs at h
    cases h with
    | refl =>
      intro hc
      cases hc with
      | or hm hc =>
        simp only [List.mem_cons, List.not_mem_nil, or_false] at hm
        rcases hm with rfl | rfl
        · cases hc with
          | and hc => cases hc (.simple (.literal c!"b")) (by simp)
        · cases hc
    | rep h =>
      cases h with
      | or hm h =>
        simp only [List.mem_cons, List.not_mem_nil, or_false] at hm
        rcases hm with rfl | rfl
        · cases h with
          | and hm h =>
            simp only [List.mem_cons, List.not_mem_nil, or_false] at hm
            rcases hm with rfl | rfl
            · exact stairs_bodies d b mn h
            · cases h
        · cases h

theorem stairs_calls : ∀ d n, ¬ LeftCalls G (stairs d) n
  | 0, n, h => by cases h
  | d + 1, n, h => by
    unfold stairs at h
    cases h with
    | rep h =>
      cases h with
      | or hm h =>
        simp only [List.mem_cons, List.not_mem_nil, or_false] at hm
        rcases hm with rfl | rfl
        · generalize hx : Expr.and [stairs d, .simple (.literal c!"b")] = x at h
          cases h with
          | and _ h =>
            rename_i pre e post _
            have hm : e ∈ [stairs d, Expr.simple (.literal c!"b")] := by
              injection hx with hx
              rw [hx]; simp
            simp only [List.mem_cons, List.not_mem_nil, or_false] at hm
            rcases hm with rfl | rfl
            · exact stairs_calls d n h
            · cases h
          | _ => cases hx
        · cases h

end

theorem stairs_only {d n e} (h : denotes (exStairs d) n = some e) : e = stairs d := by
  by_cases hn : n = c!"main"
  · subst hn
    rw [stairs_main] at h
    exact (Option.some.inj h).symm
  · have : (n == c!"main") = false := by simpa using hn
    unfold denotes grammar exStairs at h
    simp [List.lookup, this] at h

theorem stairs_wf (d : Nat) : WellFormed (denotes (exStairs d)) where
  no_left_recursion n h := by
    have : ∀ a b, ¬ LeftStep (denotes (exStairs d)) a b := by
      rintro a b ⟨e, hg, hc⟩
      rw [stairs_only hg] at hc
      exact stairs_calls d b hc
    cases h with
    | single h => exact this _ _ h
    | tail _ h => exact this _ _ h
  no_empty_repetition n e b mn hg hs := by
    rw [stairs_only hg] at hs
    exact stairs_bodies d b mn hs

/-- **C69**, the exponent is the right one: for each `d` there is a rule with `d` repetitions inside of one another that takes at
least `n` over `d` calls for `n` letters "a". -/
theorem C69_attained (d : Nat) : WellFormed (denotes (exStairs d)) ∧ Nested (denotes (exStairs d)) (.ruleName c!"main") d ∧
    ∀ n, ∃ m, Uses (List.replicate n 'a') (exStairs d) m ∧ n.choose d ≤ m.calls := by
  refine ⟨stairs_wf d, .call (stairs_main d) (stairs_nested d), fun n => ?_⟩
  obtain ⟨c, dd, h, hc⟩ := stairs_effort (G := denotes (exStairs d)) d n
  exact ⟨⟨c, dd⟩, (C53_effort (ascii_as n) _ _).2 (.call (stairs_main d) h), hc⟩

/-- two repetitions inside of one another: the work is at most quadratic, and at least n (n - 1) / 2 for n letters "a" -/
example : (∃ K, ∀ s, Ascii s → ∃ m, Uses s (exStairs 2) m ∧ m.calls ≤ K * (s.length + 1) ^ 2) ∧
    ∀ n, ∃ m, Uses (List.replicate n 'a') (exStairs 2) m ∧ n.choose 2 ≤ m.calls :=
  ⟨C69_power (C69_attained 2).1 (C69_attained 2).2.1, (C69_attained 2).2.2⟩

/-- a literal: constant work -/
example : ∃ K, ∀ s, Ascii s → ∃ m, Uses s (exStairs 0) m ∧ m.calls ≤ K := C69_constant (C69_attained 0).1 (C69_attained 0).2.1

end DP
