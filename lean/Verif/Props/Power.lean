/-
Property C107: the rule `main = 'a' main 'a' / 'a'`.
-/
import Verif.Props.ContextFree
import Verif.Proofs.Gens
import Verif.Props.Effort

namespace DP
open Spec Spec.Syntax Spec.Readme

def exPowerBody : Expr :=
  .or [.and [.simple (.literal c!"a"), .ruleName c!"main", .simple (.literal c!"a")], .simple (.literal c!"a")]

def exPower : SetOfRules := ⟨[(c!"main", exPowerBody)]⟩

/-- **C107**: the rule, read from a PEG text -/
theorem C107_rules : rulesFromPeg c!"main = 'a' main 'a' / 'a'\n" = .ok exPower := rulesFromPeg_of 200 (by decide +kernel)

theorem power_wf : WellFormed (denotes exPower) := wf_of_check (nul := []) (ranks := [c!"main"]) (by decide +kernel)

/-- how many of `m` letters the rule takes -/
def powerTakes : Nat → Nat
  | 0 => 0
  | m + 1 => if powerTakes m < m then powerTakes m + 2 else 1

/-- the tree with `k` letters on both sides of the one in the middle -/
def powerTree : Nat → Node
  | 0 => .rule c!"main" [.val c!"a"]
  | k + 1 => .rule c!"main" [.val c!"a", powerTree k, .val c!"a"]

theorem powerTakes_le : ∀ m, powerTakes m ≤ m
  | 0 => by simp [powerTakes]
  | m + 1 => by
    rw [powerTakes]
    split <;> omega

theorem powerTakes_eq (n : Nat) : ∀ j, j < 2 ^ n → powerTakes (2 ^ n + j) = 2 * j + 1 := by
  induction n with
  | zero =>
    intro j hj
    have : j = 0 := by simpa using hj
    subst this
    decide
  | succ n ih =>
    intro j
    induction j with
    | zero =>
      intro _
      have h1 : 0 < 2 ^ n := Nat.two_pow_pos n
      have h2 := ih (2 ^ n - 1) (by omega)
      have h3 : 2 ^ (n + 1) + 0 = (2 ^ n + (2 ^ n - 1)) + 1 := by rw [Nat.pow_succ]; omega
      rw [h3, powerTakes, h2, if_neg (by omega)]
    | succ j ihj =>
      intro hj
      have h1 := ihj (by omega)
      rw [← Nat.add_assoc, powerTakes, h1, if_pos (by omega)]
      omega

theorem powerTakes_all {m : Nat} : (0 < m ∧ powerTakes m = m) ↔ ∃ n, m = 2 ^ (n + 1) - 1 := by
  constructor
  · rintro ⟨hm, h⟩
    have h1 : 2 ^ m.log2 ≤ m := Nat.log2_self_le (by omega)
    have h2 : m < 2 ^ (m.log2 + 1) := Nat.lt_log2_self
    have h3 := powerTakes_eq m.log2 (m - 2 ^ m.log2) (by rw [Nat.pow_succ] at h2; omega)
    rw [Nat.add_sub_cancel' h1, h] at h3
    refine ⟨m.log2, ?_⟩
    rw [Nat.pow_succ]
    omega
  · rintro ⟨n, rfl⟩
    have h1 : 0 < 2 ^ n := Nat.two_pow_pos n
    have h2 := powerTakes_eq n (2 ^ n - 1) (by omega)
    have h3 : 2 ^ n + (2 ^ n - 1) = 2 ^ (n + 1) - 1 := by rw [Nat.pow_succ]; omega
    rw [h3] at h2
    refine ⟨by rw [Nat.pow_succ]; omega, ?_⟩
    rw [h2, Nat.pow_succ]
    omega

/-- what the rule does with `m` letters and what follows them -/
theorem power_peg (m : Nat) (r : Str) (hr : ¬ c!"a" <+: r) :
    (m = 0 → Peg (denotes exPower) (.ruleName c!"main") (List.replicate m 'a' ++ r) .fail) ∧
    (0 < m → Peg (denotes exPower) (.ruleName c!"main") (List.replicate m 'a' ++ r)
      (.ok (List.replicate (m - powerTakes m) 'a' ++ r) [powerTree ((powerTakes m - 1) / 2)])) := by
  have hg : denotes exPower c!"main" = some exPowerBody := rfl
  have la : ∀ q, Peg (denotes exPower) (.simple (.literal c!"a")) ('a' :: q) (.ok q [.val c!"a"]) := fun q => .lit_ok c!"a" q
  have alt : ∀ q, Peg (denotes exPower) (.and [.simple (.literal c!"a"), .ruleName c!"main", .simple (.literal c!"a")]) ('a' :: q) .fail →
      Peg (denotes exPower) (.ruleName c!"main") ('a' :: q) (.ok q [powerTree 0]) := fun q h =>
    .call_ok hg (.or_next h (.or_ok (la q)))
  have h0 : Peg (denotes exPower) (.ruleName c!"main") r .fail :=
    .call_fail hg (.or_next (.and_fail (.lit_fail _ _ hr)) (.or_next (.lit_fail _ _ hr) (.or_nil _)))
  induction m with
  | zero => exact ⟨fun _ => h0, fun h => absurd h (by simp)⟩
  | succ m ih =>
    refine ⟨fun h => absurd h (by simp), fun _ => ?_⟩
    rw [List.replicate_succ, List.cons_append, powerTakes]
    cases m with
    | zero =>
      exact alt _ (.and_tail_fail (la _) (.and_fail h0))
    | succ m =>
      have h1 := ih.2 (by simp)
      have hle := powerTakes_le (m + 1)
      by_cases hlt : powerTakes (m + 1) < m + 1
      · rw [if_pos hlt]
        obtain ⟨d, hd⟩ := Nat.exists_eq_add_of_lt hlt
        have e1 : m + 1 - powerTakes (m + 1) = d + 1 := by omega
        have e2 : m + 1 + 1 - (powerTakes (m + 1) + 2) = d := by omega
        have e3 : (powerTakes (m + 1) + 2 - 1) / 2 = (powerTakes (m + 1) - 1) / 2 + 1 := by
          have : 0 < powerTakes (m + 1) := by rw [powerTakes]; split <;> omega
          omega
        rw [e1, List.replicate_succ, List.cons_append] at h1
        rw [e2, e3]
        exact .call_ok hg (.or_ok (.and_ok (la _) (.and_ok h1 (.and_ok (la _) (.and_nil _)))))
      · rw [if_neg hlt]
        have e1 : m + 1 - powerTakes (m + 1) = 0 := by omega
        rw [e1] at h1
        exact alt _ (.and_tail_fail (la _) (.and_tail_fail h1 (.and_fail (.lit_fail _ _ hr))))

theorem letters_split (s : Str) : ∃ m r, s = List.replicate m 'a' ++ r ∧ ¬ c!"a" <+: r := by
  induction s with
  | nil => exact ⟨0, [], rfl, by decide⟩
  | cons c s ih =>
    by_cases hc : c = 'a'
    · obtain ⟨m, r, rfl, hr⟩ := ih
      exact ⟨m + 1, r, by rw [hc]; rfl, hr⟩
    · refine ⟨0, c :: s, rfl, fun h => hc ?_⟩
      rw [List.cons_prefix_cons] at h
      exact h.1.symm

theorem ascii_letters (m : Nat) : Ascii (List.replicate m 'a') := fun c hc => by
  rw [(List.mem_replicate.1 hc).2]; decide

/-- **C107**: the rule accepts exactly the texts of 1, 3, 7, 15, … letters `a`, one less than a power of two. -/
theorem C107_power (s : Str) (t : Node) :
    parse s exPower = .ok t ↔ ∃ n, s = List.replicate (2 ^ (n + 1) - 1) 'a' ∧ t = powerTree (2 ^ n - 1) := by
  rw [parse_iff]
  constructor
  · rintro ⟨_, h⟩
    obtain ⟨m, r, rfl, hr⟩ := letters_split s
    have hp := power_peg m r hr
    rcases Nat.eq_zero_or_pos m with hm | hm
    · cases peg_det h (hp.1 hm)
    · have := peg_det h (hp.2 hm)
      rw [Outcome.ok.injEq, List.cons.injEq] at this
      obtain ⟨h1, h2, _⟩ := this
      have h1 := h1.symm
      rw [List.append_eq_nil_iff, List.replicate_eq_nil_iff] at h1
      obtain ⟨h1, rfl⟩ := h1
      have hle := powerTakes_le m
      have he : powerTakes m = m := by omega
      obtain ⟨n, rfl⟩ := powerTakes_all.1 ⟨hm, he⟩
      refine ⟨n, by simp, ?_⟩
      rw [h2, he]
      congr 1
      rw [Nat.pow_succ]
      omega
  · rintro ⟨n, rfl, rfl⟩
    refine ⟨ascii_letters _, ?_⟩
    obtain ⟨hm, he⟩ := powerTakes_all.2 ⟨n, rfl⟩
    have := (power_peg (2 ^ (n + 1) - 1) [] (by decide)).2 hm
    rw [he, Nat.sub_self, List.append_nil] at this
    have e : (2 ^ (n + 1) - 1 - 1) / 2 = 2 ^ n - 1 := by rw [Nat.pow_succ]; omega
    rw [e] at this
    exact this

/-- **C107**: every other ASCII text is an error. -/
theorem C107_error {s : Str} (ha : Ascii s) : (∃ e, parse s exPower = .err e) ↔ ∀ n, s ≠ List.replicate (2 ^ (n + 1) - 1) 'a' := by
  constructor
  · rintro ⟨e, h⟩ n hn
    rw [(C107_power s _).2 ⟨n, hn, rfl⟩] at h
    cases h
  · intro h
    rcases C12_total_on_ascii power_wf ha with ⟨t, ht⟩ | h1
    · obtain ⟨n, hn, _⟩ := (C107_power s t).1 ht
      exact absurd hn (h n)
    · exact h1

/-- **C107**: the rule, read as a context-free grammar, derives every odd number of letters. -/
theorem C107_derived (s : Str) (t : Node) :
    Gen (denotes exPower) (.ruleName c!"main") s [t] ↔ ∃ k, s = List.replicate (2 * k + 1) 'a' ∧ t = powerTree k := by
  have hg : denotes exPower c!"main" = some exPowerBody := rfl
  constructor
  · intro h
    induction hn : s.length using Nat.strong_induction_on generalizing s t with
    | _ n ih =>
    subst hn
    rw [derives_call hg] at h
    obtain ⟨ms, h, ht⟩ := h
    rw [exPowerBody, derives_or] at h
    obtain ⟨e, he, h⟩ := h
    simp only [List.mem_cons, List.not_mem_nil, or_false] at he
    rcases he with rfl | rfl
    · simp only [derives_cons, derives_nil, derives_lit] at h
      obtain ⟨a, b, m1, m2, ⟨rfl, rfl⟩, ⟨c, d, m3, m4, hc, ⟨x, y, m5, m6, ⟨rfl, rfl⟩, ⟨rfl, rfl⟩, rfl, rfl⟩, rfl, rfl⟩, rfl, rfl⟩ := h
      have hx := hc
      rw [derives_call hg] at hx
      obtain ⟨ms, _, rfl⟩ := hx
      obtain ⟨k, rfl, hk⟩ := ih c.length (by simp; omega) c _ hc rfl
      refine ⟨k + 1, ?_, ?_⟩
      · have : 2 * (k + 1) + 1 = (2 * k + 1) + 1 + 1 := by omega
        rw [this, List.replicate_succ' (n := 2 * k + 1 + 1), List.replicate_succ]
        rfl
      · rw [List.cons.injEq] at ht
        rw [ht.1, hk]
        rfl
    · rw [derives_lit] at h
      obtain ⟨rfl, rfl⟩ := h
      rw [List.cons.injEq] at ht
      exact ⟨0, rfl, ht.1⟩
  · rintro ⟨k, rfl, rfl⟩
    induction k with
    | zero => exact .call hg (.or (e := .simple (.literal c!"a")) (by simp [exPowerBody]) (.lit _))
    | succ k ih =>
      have e : List.replicate (2 * (k + 1) + 1) 'a' = c!"a" ++ (List.replicate (2 * k + 1) 'a' ++ (c!"a" ++ [])) := by
        have : 2 * (k + 1) + 1 = (2 * k + 1) + 1 + 1 := by omega
        rw [this, List.replicate_succ, List.replicate_succ' (n := 2 * k + 1)]
        rfl
      rw [e]
      exact .call hg (.or (List.mem_cons_self) (.cons (.lit _) (.cons ih (.cons (.lit _) .nil))))

theorem power_effort (m : Nat) (r : Str) (hr : ¬ c!"a" <+: r) :
    ∃ c d, Effort (denotes exPower) (.one (.ruleName c!"main")) (List.replicate m 'a' ++ r) c d ∧ c ≤ 6 * m + 5 := by
  have hg : denotes exPower c!"main" = some exPowerBody := rfl
  have la : ∀ q, Peg (denotes exPower) (.simple (.literal c!"a")) ('a' :: q) (.ok q [.val c!"a"]) := fun q => .lit_ok c!"a" q
  have fa : Peg (denotes exPower) (.simple (.literal c!"a")) r .fail := .lit_fail _ _ hr
  induction m with
  | zero =>
    refine ⟨_, _, .call hg (.or (.alt_more (.and (.seq_stop (.simple _ _) fa (by simp))) (.and_fail fa)
      (.alt_more (.simple _ _) fa (.alt_nil _)))), ?_⟩
    omega
  | succ m ih =>
    obtain ⟨c, d, hc, hle⟩ := ih
    have hp := power_peg m r hr
    rw [List.replicate_succ, List.cons_append]
    rcases Nat.eq_zero_or_pos m with hm | hm
    · have h0 := hp.1 hm
      refine ⟨_, _, .call hg (.or (.alt_more (.and (.seq_more (.simple _ _) (la _) (.seq_stop hc h0 (by simp))))
        (.and_tail_fail (la _) (.and_fail h0)) (.alt_stop (.simple _ _) (la _) (by simp)))), ?_⟩
      omega
    · have h1 := hp.2 hm
      cases hq : m - powerTakes m with
      | zero =>
        rw [hq] at h1
        refine ⟨_, _, .call hg (.or (.alt_more (.and (.seq_more (.simple _ _) (la _) (.seq_more hc h1 (.seq_stop (.simple _ _) fa (by simp)))))
          (.and_tail_fail (la _) (.and_tail_fail h1 (.and_fail fa))) (.alt_stop (.simple _ _) (la _) (by simp)))), ?_⟩
        omega
      | succ q =>
        rw [hq, List.replicate_succ, List.cons_append] at h1
        refine ⟨_, _, .call hg (.or (.alt_stop (.and (.seq_more (.simple _ _) (la _) (.seq_more hc h1 (.seq_more (.simple _ _) (la _) (.seq_nil _)))))
          (.and_ok (la _) (.and_ok h1 (.and_ok (la _) (.and_nil _)))) (by simp))), ?_⟩
        omega

/-- **C107**: and it tells after a number of calls at most proportional to the length of the text. -/
theorem C107_linear {s : Str} (ha : Ascii s) {m : Meter} (h : Uses s exPower m) : m.calls ≤ 6 * s.length + 4 := by
  obtain ⟨k, r, rfl, hr⟩ := letters_split s
  obtain ⟨c, d, hc, hle⟩ := power_effort k r hr
  have h1 := (C53_effort ha exPower m).1 h
  obtain ⟨h2, _⟩ := effort_det h1 hc
  rw [List.length_append, List.length_replicate]
  omega

/-- seven letters are accepted; five are derived, but not accepted -/
example : parse c!"aaaaaaa" exPower = .ok (powerTree 3) ∧ Gen (denotes exPower) (.ruleName c!"main") c!"aaaaa" [powerTree 2] ∧
    ∀ t, parse c!"aaaaa" exPower ≠ .ok t := by
  refine ⟨(C107_power _ _).2 ⟨2, rfl, rfl⟩, (C107_derived _ _).2 ⟨2, rfl, rfl⟩, fun t h => ?_⟩
  obtain ⟨n, h, _⟩ := (C107_power _ _).1 h
  have h := congrArg List.length h
  rw [List.length_replicate] at h
  match n, h with
  | 0, h => exact absurd h (by decide)
  | 1, h => exact absurd h (by decide)
  | n + 2, h =>
    have h1 : 0 < 2 ^ n := Nat.two_pow_pos n
    have h2 : 2 ^ (n + 2 + 1) = 8 * 2 ^ n := by rw [Nat.pow_succ, Nat.pow_succ, Nat.pow_succ]; omega
    rw [h2] at h
    simp at h
    omega

end DP
