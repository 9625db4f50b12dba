/-
Property C67: LL(1) rules are parsed in linear time.
-/
import Verif.Proofs.Linear
import Verif.Props.ContextFree
import Verif.Props.Effort

namespace DP
open Spec

/-- **C67**: for rules that are LL(1), without left recursion, `!`, `error(...)`, missing rules and useless parts, the number
of calls of `parse_expr` is at most proportional to the length of the text, whether it is accepted or not. -/
theorem C67_linear {R : SetOfRules} (hw : WellFormed (denotes R)) (hp : ∀ n e, denotes R n = some e → Plain (denotes R) e)
    (hl : LL1 (denotes R)) (hu : Productive (denotes R)) :
    ∃ K, ∀ s, Ascii s → ∃ m, Uses s R m ∧ m.calls ≤ K * (s.length + 1) := by
  obtain ⟨rk, hrk, hN⟩ := ranks_of_acyclic (r := LeftStep (denotes R)) (R.entries.map Prod.fst)
    (fun a b ⟨_, h, _⟩ => mem_keys h) hw.no_left_recursion
  obtain ⟨W, hW⟩ := rules_bound (fun e => esize (effective e)) R
  cases hm : denotes R c!"main" with
  | none =>
    refine ⟨1, fun s ha => ?_⟩
    refine ⟨⟨0, 0⟩, (C53_effort ha R ⟨0, 0⟩).2 (.missing hm), Nat.zero_le _⟩
  | some body =>
    have S : Setting (denotes R) (W + 1) (R.entries.map Prod.fst).length rk := {
      plain := hp
      repOK := fun n e hg b mn hs => hw.no_empty_repetition n e b mn hg hs
      prod := hu
      ll1 := hl
      size := fun n e hg => by
        obtain ⟨e', h1, rfl⟩ := Option.map_eq_some_iff.1 hg
        exact Nat.succ_le_succ (hW n e' h1)
      rank := fun n e m hg hc => hrk n m ⟨e, hg, hc⟩
      ranks := hN }
    have F : Fine (denotes R) (W + 1) (.ruleName c!"main") := {
      plain := .call hm
      repOK := by intro b mn hs; cases hs
      live := ⟨_, .main⟩
      prod := fun y hs => by
        cases hs
        obtain ⟨u, ns, hg⟩ := hu _ _ hm _ (.refl _)
        exact ⟨_, _, .call hm hg⟩
      size := by simp [esize] }
    generalize hN' : (R.entries.map Prod.fst).length = N at *
    generalize ht : (W + 1) * (N + 1) + (W + 1) = top
    refine ⟨2 ^ top * 4 ^ top, fun s ha => ?_⟩
    obtain ⟨m, h1⟩ := (C53_uses s R).1.mp (C12_well_formed_grammars_terminate hw s).1
    obtain ⟨r, h2⟩ := meas_of_effort ((C53_effort ha R m).1 h1)
    have h3 := meas_cost S h2 ht.symm rfl rfl _ rfl F (N + 1) (Nat.le_refl _) fun n _ => Nat.lt_succ_of_le (hN n)
    have h4 := cheap_le h3 (b := top) (by simp only [tsize, esize]; omega)
    refine ⟨m, h1, ?_⟩
    have h5 := meas_le h2
    rcases Nat.eq_zero_or_pos r with h0 | h0
    · have h6 := h4.1 h0
      have h7 : 2 ^ top * 1 ≤ 2 ^ top * 4 ^ top := Nat.mul_le_mul_left _ (Nat.pow_pos (by omega))
      have h8 : 2 ^ top * 4 ^ top * 1 ≤ 2 ^ top * 4 ^ top * (s.length + 1) := Nat.mul_le_mul_left _ (by omega)
      omega
    · have h6 := h4.2 h0
      have h7 : 2 ^ top * 4 ^ top * (r - 1 + 1) ≤ 2 ^ top * 4 ^ top * (s.length + 1) := Nat.mul_le_mul_left _ (by omega)
      rw [Nat.mul_add] at h7
      omega

/-- balanced parentheses -/
example : ∃ K, ∀ s, Ascii s → ∃ m, Uses s exDyck m ∧ m.calls ≤ K * (s.length + 1) :=
  C67_linear dyck_wf dyck_ll1.1 dyck_ll1.2 (productive_of_check 20 (by decide +kernel))

/-- the factored rule of C53, `main = "(" main (")" / "]") / "a"`, on every text -/
example : ∃ K, ∀ s, Ascii s → ∃ m, Uses s exOnce m ∧ m.calls ≤ K * (s.length + 1) := by
  have h := ll1_of_check (R := exOnce) (nul := []) (fst := fun _ => [('(', '('), ('a', 'a')])
    (fol := fun _ => [none, some (')', ')'), some (']', ']')]) (by decide +kernel)
  exact C67_linear (wf_of_check (nul := []) (ranks := []) (by decide +kernel)) h.1 h.2 (productive_of_check 20 (by decide +kernel))

/-! ### Useless parts -/

def exFutileBody : Expr := .or [.and [.simple (.literal c!"a"), .ruleName c!"main"], .and [.simple (.literal c!"a"), .ruleName c!"main"]]

/-- `main = "a" main / "a" main` -/
def exFutile : SetOfRules := ⟨[(c!"main", exFutileBody)]⟩

theorem futile_main {n e} (h : denotes exFutile n = some e) : n = c!"main" ∧ e = exFutileBody := by
  unfold denotes grammar exFutile at h
  by_cases hn : n = c!"main"
  · subst hn; cases h; exact ⟨rfl, rfl⟩
  · have : (n == c!"main") = false := by simpa using hn
    simp [List.lookup, this] at h

/-- it derives nothing -/
theorem futile_gen {e u ns} (h : Gen (denotes exFutile) e u ns) : e ≠ .ruleName c!"main" ∧ e ≠ exFutileBody ∧
    e ≠ .and [.simple (.literal c!"a"), .ruleName c!"main"] ∧ e ≠ .and [.ruleName c!"main"] ∧
    e ≠ .or [.and [.simple (.literal c!"a"), .ruleName c!"main"]] := by
  induction h with
  | cons _ _ ih ih' =>
    refine ⟨by simp, by simp [exFutileBody], ?_, ?_, by simp⟩
    · rintro h; cases h; exact ih'.2.2.2.1 rfl
    · rintro h; cases h; exact ih.1 rfl
  | or hm _ ih =>
    refine ⟨by simp, ?_, by simp, by simp, ?_⟩
    · rintro h; cases h
      simp only [List.mem_cons, List.not_mem_nil, or_false, or_self] at hm
      exact ih.2.2.1 hm
    · rintro h; cases h
      simp only [List.mem_cons, List.not_mem_nil, or_false] at hm
      exact ih.2.2.1 hm
  | call hg _ ih =>
    refine ⟨?_, by simp [exFutileBody], by simp, by simp, by simp⟩
    rintro h; cases h
    exact ih.2.1 (futile_main hg).2
  | _ => simp [exFutileBody]

theorem futile_follow {e x} (h : Follow (denotes exFutile) e x) : (∃ n, e = .ruleName n) ∨ e = exFutileBody ∨
    (∃ es, e = .and es ∧ ∀ y ∈ es, y = .simple (.literal c!"a") ∨ y = .ruleName c!"main") ∨
    e = .or [.and [.simple (.literal c!"a"), .ruleName c!"main"]] ∨ e = .or [] ∨ e = .simple (.literal c!"a") := by
  induction h with
  | main => exact .inl ⟨_, rfl⟩
  | body hg _ _ => exact .inr (.inl (futile_main hg).2)
  | next _ _ ih | last _ _ ih =>
    rcases ih with ⟨n, ih⟩ | ih | ⟨es, ih, hy⟩ | ih | ih | ih <;> cases ih
    rcases hy _ List.mem_cons_self with rfl | rfl
    · exact .inr (.inr (.inr (.inr (.inr rfl))))
    · exact .inl ⟨_, rfl⟩
  | rest _ ih =>
    rcases ih with ⟨n, ih⟩ | ih | ⟨es, ih, hy⟩ | ih | ih | ih <;> cases ih
    exact .inr (.inr (.inl ⟨_, rfl, fun y h => hy y (List.mem_cons_of_mem _ h)⟩))
  | alternative _ ih =>
    rcases ih with ⟨n, ih⟩ | ih | ⟨es, ih, hy⟩ | ih | ih | ih <;> cases ih
    · exact .inr (.inr (.inl ⟨_, rfl, by simp⟩))
    · exact .inr (.inr (.inl ⟨_, rfl, by simp⟩))
  | alternatives _ ih =>
    rcases ih with ⟨n, ih⟩ | ih | ⟨es, ih, hy⟩ | ih | ih | ih <;> cases ih
    · exact .inr (.inr (.inr (.inl rfl)))
    · exact .inr (.inr (.inr (.inr (.inl rfl))))
  | again _ _ _ ih | once _ _ _ ih | repeats _ _ ih =>
    rcases ih with ⟨n, ih⟩ | ih | ⟨es, ih, hy⟩ | ih | ih | ih <;> cases ih

theorem futile_ll1 : LL1 (denotes exFutile) where
  choice e e' es x h := by
    have : Expr.or (e :: e' :: es) = exFutileBody := by
      rcases futile_follow h with ⟨n, ih⟩ | ih | ⟨es, ih, hy⟩ | ih | ih | ih <;> first | exact ih | cases ih
    cases this
    refine ⟨fun ⟨_, h⟩ => (futile_gen h).2.2.1 rfl, fun c ⟨_, _, h⟩ => absurd rfl (futile_gen h).2.2.1⟩
  repetition e mx x h := by
    rcases futile_follow h with ⟨n, ih⟩ | ih | ⟨es, ih, hy⟩ | ih | ih | ih <;> cases ih

theorem futile_effort (n : Nat) : ∃ c d, Effort (denotes exFutile) (.one (.ruleName c!"main")) (List.replicate n 'a') (c + 1) (d + 1) ∧
    2 ^ n ≤ c ∧ Peg (denotes exFutile) (.ruleName c!"main") (List.replicate n 'a') .fail := by
  induction n with
  | zero =>
    have h : Peg (denotes exFutile) (.simple (.literal c!"a")) [] .fail := .lit_fail _ _ (by decide)
    have h' : Peg (denotes exFutile) (.and [.simple (.literal c!"a"), .ruleName c!"main"]) [] .fail := .and_fail h
    exact ⟨_, _, .call rfl (.or (.alt_more (.and (.seq_stop (.simple _ _) h (by simp))) h'
      (.alt_more (.and (.seq_stop (.simple _ _) h (by simp))) h' (.alt_nil _)))), by decide,
      .call_fail rfl (.or_next h' (.or_next h' (.or_nil _)))⟩
  | succ n ih =>
    obtain ⟨c, d, he, hc, hp⟩ := ih
    have h : Peg (denotes exFutile) (.simple (.literal c!"a")) (List.replicate (n + 1) 'a') (.ok (List.replicate n 'a') _) := .lit_ok c!"a" _
    have h' : Peg (denotes exFutile) (.and [.simple (.literal c!"a"), .ruleName c!"main"]) (List.replicate (n + 1) 'a') .fail :=
      .and_tail_fail h (.and_fail hp)
    have hs := Effort.and (.seq_more (.simple _ _) h (.seq_stop (es := []) he hp (by simp)))
    refine ⟨_, _, .call rfl (.or (.alt_more hs h' (.alt_more hs h' (.alt_nil _)))), ?_,
      .call_fail rfl (.or_next h' (.or_next h' (.or_nil _)))⟩
    rw [Nat.pow_succ]
    omega

/-- **C67**: useless parts can make the time exponential: `main = "a" main / "a" main` derives no text, so it is LL(1), but
takes more than 2ⁿ calls of `parse_expr` to refuse n letters "a". -/
theorem C67_useless : WellFormed (denotes exFutile) ∧ (∀ n e, denotes exFutile n = some e → Plain (denotes exFutile) e) ∧
    LL1 (denotes exFutile) ∧ ∀ n, ∃ m, Uses (List.replicate n 'a') exFutile m ∧ 2 ^ n ≤ m.calls := by
  refine ⟨wf_of_check (nul := []) (ranks := []) (by decide +kernel), fun n e h => ?_, futile_ll1, fun n => ?_⟩
  · obtain ⟨rfl, rfl⟩ := futile_main h
    refine .or fun e he => ?_
    simp only [List.mem_cons, List.not_mem_nil, or_false, or_self] at he
    subst he
    refine .and fun e he => ?_
    simp only [List.mem_cons, List.not_mem_nil, or_false] at he
    rcases he with rfl | rfl
    · exact .lit _
    · exact .call rfl
  · obtain ⟨c, d, he, hc, _⟩ := futile_effort n
    exact ⟨⟨c, d⟩, (C53_effort (ascii_as n) _ _).mpr he, hc⟩

end DP
