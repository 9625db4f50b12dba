/-
The work for an expression, together with its outcome (without the nodes); expressions that settle on the next character.
-/
import Verif.Proofs.Nesting

namespace DP
open Spec

/-- an outcome without nodes -/
inductive Verdict where
  | yes (r : Str)
  | no
  | stop

/-- the outcome without the nodes -/
def kind : Outcome → Verdict
  | .ok r _ => .yes r
  | .fail => .no
  | .crit _ _ => .stop

/-- `Bill G e s c o`: matching `e` at `s` is matching `c` expressions, with outcome `o`. -/
inductive Bill (G : Str → Option Expr) : Expr → Str → Nat → Verdict → Prop
  | simple {a s o} : Peg G (.simple a) s o → Bill G (.simple a) s 1 (kind o)
  | and_nil (s) : Bill G (.and []) s 1 (.yes s)
  | and_yes {e es s r c c' o} : Bill G e s c (.yes r) → Bill G (.and es) r c' o → Bill G (.and (e :: es)) s (c + c') o
  | and_no {e es s c} : Bill G e s c .no → Bill G (.and (e :: es)) s (c + 1) .no
  | and_stop {e es s c} : Bill G e s c .stop → Bill G (.and (e :: es)) s (c + 1) .stop
  | or_nil (s) : Bill G (.or []) s 1 .no
  | or_no {e es s c c' o} : Bill G e s c .no → Bill G (.or es) s c' o → Bill G (.or (e :: es)) s (c + c') o
  | or_yes {e es s r c} : Bill G e s c (.yes r) → Bill G (.or (e :: es)) s (c + 1) (.yes r)
  | or_stop {e es s c} : Bill G e s c .stop → Bill G (.or (e :: es)) s (c + 1) .stop
  | not_yes {e s r c} : Bill G e s c (.yes r) → Bill G (.not e) s (c + 1) .no
  | not_no {e s c} : Bill G e s c .no → Bill G (.not e) s (c + 1) (.yes s)
  | not_stop {e s c} : Bill G e s c .stop → Bill G (.not e) s (c + 1) (.yes s)
  | rep_full (e mn s) : Bill G (.rep e mn (some 0)) s 1 (.yes s)
  | rep_yes {e mn mx s r c c' o} : mx ≠ some 0 → Bill G e s c (.yes r) → Bill G (.rep e (mn - 1) (mx.map (· - 1))) r c' o →
      Bill G (.rep e mn mx) s (c + c') o
  | rep_no {e mx s c} : mx ≠ some 0 → Bill G e s c .no → Bill G (.rep e 0 mx) s (c + 1) (.yes s)
  | rep_few {e mn mx s c} : mx ≠ some 0 → 0 < mn → Bill G e s c .no → Bill G (.rep e mn mx) s (c + 1) .no
  | rep_stop {e mn mx s c} : mx ≠ some 0 → Bill G e s c .stop → Bill G (.rep e mn mx) s (c + 1) .stop
  | call {n e s c o} : G n = some e → Bill G e s c o → Bill G (.ruleName n) s (c + 1) o
  | missing {n s} : G n = none → Bill G (.ruleName n) s 1 .stop

section
variable {G : Str → Option Expr}

theorem kind_yes {o r} (h : Verdict.yes r = kind o) : ∃ ns, o = .ok r ns := by
  cases o <;> simp only [kind, reduceCtorEq, Verdict.yes.injEq] at h
  subst h; exact ⟨_, rfl⟩
theorem kind_no {o} (h : Verdict.no = kind o) : o = .fail := by cases o <;> simp only [kind, reduceCtorEq] at h; rfl
theorem kind_stop {o} (h : Verdict.stop = kind o) : ∃ w q, o = .crit w q := by
  cases o <;> simp only [kind, reduceCtorEq] at h; exact ⟨_, _, rfl⟩

theorem bill_peg {e s c o} (h : Bill G e s c o) : ∃ p, Peg G e s p ∧ o = kind p := by
  induction h with
  | simple h => exact ⟨_, h, rfl⟩
  | and_nil s => exact ⟨_, .and_nil s, rfl⟩
  | and_yes _ _ ih ih' =>
    obtain ⟨p, hp, h⟩ := ih; obtain ⟨ns, rfl⟩ := kind_yes h
    obtain ⟨p', hp', h'⟩ := ih'
    cases p' with
    | ok r ms => exact ⟨_, .and_ok hp hp', h'⟩
    | fail => exact ⟨_, .and_tail_fail hp hp', h'⟩
    | crit w q => exact ⟨_, .and_tail_crit hp hp', h'⟩
  | and_no _ ih => obtain ⟨p, hp, h⟩ := ih; cases kind_no h; exact ⟨_, .and_fail hp, rfl⟩
  | and_stop _ ih => obtain ⟨p, hp, h⟩ := ih; obtain ⟨w, q, rfl⟩ := kind_stop h; exact ⟨_, .and_crit hp, rfl⟩
  | or_nil s => exact ⟨_, .or_nil s, rfl⟩
  | or_no _ _ ih ih' =>
    obtain ⟨p, hp, h⟩ := ih; cases kind_no h
    obtain ⟨p', hp', h'⟩ := ih'
    exact ⟨_, .or_next hp hp', h'⟩
  | or_yes _ ih => obtain ⟨p, hp, h⟩ := ih; obtain ⟨ns, rfl⟩ := kind_yes h; exact ⟨_, .or_ok hp, rfl⟩
  | or_stop _ ih => obtain ⟨p, hp, h⟩ := ih; obtain ⟨w, q, rfl⟩ := kind_stop h; exact ⟨_, .or_crit hp, rfl⟩
  | not_yes _ ih => obtain ⟨p, hp, h⟩ := ih; obtain ⟨ns, rfl⟩ := kind_yes h; exact ⟨_, .not_ok hp, rfl⟩
  | not_no _ ih => obtain ⟨p, hp, h⟩ := ih; cases kind_no h; exact ⟨_, .not_fail hp, rfl⟩
  | not_stop _ ih => obtain ⟨p, hp, h⟩ := ih; obtain ⟨w, q, rfl⟩ := kind_stop h; exact ⟨_, .not_crit hp, rfl⟩
  | rep_full e mn s => exact ⟨_, .rep_full e mn s, rfl⟩
  | rep_yes hm _ _ ih ih' =>
    obtain ⟨p, hp, h⟩ := ih; obtain ⟨ns, rfl⟩ := kind_yes h
    obtain ⟨p', hp', h'⟩ := ih'
    cases p' with
    | ok r ms => exact ⟨_, .rep_more hm hp hp', h'⟩
    | fail => exact ⟨_, .rep_more_fail hm hp hp', h'⟩
    | crit w q => exact ⟨_, .rep_more_crit hm hp hp', h'⟩
  | rep_no hm _ ih => obtain ⟨p, hp, h⟩ := ih; cases kind_no h; exact ⟨_, .rep_stop hm hp, rfl⟩
  | rep_few hm hn _ ih => obtain ⟨p, hp, h⟩ := ih; cases kind_no h; exact ⟨_, .rep_few hm hn hp, rfl⟩
  | rep_stop hm _ ih => obtain ⟨p, hp, h⟩ := ih; obtain ⟨w, q, rfl⟩ := kind_stop h; exact ⟨_, .rep_crit hm hp, rfl⟩
  | call hg _ ih =>
    obtain ⟨p, hp, h⟩ := ih
    cases p with
    | ok r ms => exact ⟨_, .call_ok hg hp, h⟩
    | fail => exact ⟨_, .call_fail hg hp, h⟩
    | crit w q => exact ⟨_, .call_crit hg hp, h⟩
  | missing hg => exact ⟨_, .call_missing hg, rfl⟩

theorem bill_det {e s c c' o o'} (h : Bill G e s c o) (h' : Bill G e s c' o') : o = o' := by
  obtain ⟨p, hp, rfl⟩ := bill_peg h
  obtain ⟨p', hp', rfl⟩ := bill_peg h'
  rw [peg_det hp hp']

theorem bill_le {e s c r} (h : Bill G e s c (.yes r)) : r.length ≤ s.length := by
  obtain ⟨p, hp, hk⟩ := bill_peg h
  obtain ⟨ns, rfl⟩ := kind_yes hk
  exact ok_length hp

theorem bill_lt {e s c r} (he : ¬ CanEmpty G e) (h : Bill G e s c (.yes r)) : r.length < s.length := by
  obtain ⟨p, hp, hk⟩ := bill_peg h
  obtain ⟨ns, rfl⟩ := kind_yes hk
  have := peg_length hp _ _ rfl
  exact Nat.lt_of_le_of_ne this.1 fun h => he (this.2 h)

theorem bill_as {e s c o p} (h : Bill G e s c o) (hp : Peg G e s p) : o = kind p := by
  obtain ⟨p', hp', rfl⟩ := bill_peg h
  rw [peg_det hp hp']

theorem bill_simple {a s c o} (h : Bill G (.simple a) s c o) : c = 1 := by
  generalize hx : Expr.simple a = x at h
  cases h <;> first | rfl | cases hx

theorem bill_lit {l s c o} (h : Bill G (.simple (.literal l)) s c o) :
    c = 1 ∧ ((∃ r, s = l ++ r ∧ o = .yes r) ∨ (¬ l <+: s ∧ o = .no)) := by
  refine ⟨bill_simple h, ?_⟩
  obtain ⟨p, hp, rfl⟩ := bill_peg h
  cases hp with
  | lit_ok _ r => exact .inl ⟨r, rfl, rfl⟩
  | lit_fail _ _ hn => exact .inr ⟨hn, rfl⟩

/-- the bill of a task -/
def Billed (G : Str → Option Expr) (t : Task) (s : Str) (c : Nat) : Prop :=
  match t with
  | .one e => ∃ o, Bill G e s c o
  | .seq es => ∃ o, Bill G (.and es) s (c + 1) o
  | .alt es => ∃ o, Bill G (.or es) s (c + 1) o
  | .loop e mx => ∀ mn, ∃ o, Bill G (.rep e mn mx) s (c + 1) o

theorem billed {t s c d} (h : Effort G t s c d) : Billed G t s c := by
  induction h with
  | simple a s => obtain ⟨o, ho⟩ := total_atom G a s; exact ⟨_, .simple ho⟩
  | and _ ih => exact ih
  | or _ ih => exact ih
  | not _ ih =>
    obtain ⟨o, h⟩ := ih
    cases o with
    | yes r => exact ⟨_, .not_yes h⟩
    | no => exact ⟨_, .not_no h⟩
    | stop => exact ⟨_, .not_stop h⟩
  | rep _ ih => exact ih _
  | call hg _ ih => obtain ⟨o, h⟩ := ih; exact ⟨_, .call hg h⟩
  | missing hg => exact ⟨_, .missing hg⟩
  | seq_nil s => exact ⟨_, .and_nil s⟩
  | seq_more _ hp _ ih ih' =>
    obtain ⟨o, h⟩ := ih; obtain ⟨o', h'⟩ := ih'
    cases bill_as h hp
    exact ⟨_, by rw [Nat.add_assoc]; exact .and_yes h h'⟩
  | seq_stop _ hp ho ih =>
    obtain ⟨o, h⟩ := ih
    rename_i p _ _ _
    cases bill_as h hp
    cases p with
    | ok r ns => exact absurd rfl (ho r ns)
    | fail => exact ⟨_, .and_no h⟩
    | crit w q => exact ⟨_, .and_stop h⟩
  | alt_nil s => exact ⟨_, .or_nil s⟩
  | alt_more _ hp _ ih ih' =>
    obtain ⟨o, h⟩ := ih; obtain ⟨o', h'⟩ := ih'
    cases bill_as h hp
    exact ⟨_, by rw [Nat.add_assoc]; exact .or_no h h'⟩
  | alt_stop _ hp ho ih =>
    obtain ⟨o, h⟩ := ih
    rename_i p _ _ _
    cases bill_as h hp
    cases p with
    | ok r ns => exact ⟨_, .or_yes h⟩
    | fail => exact absurd rfl ho
    | crit w q => exact ⟨_, .or_stop h⟩
  | loop_full e s => exact fun mn => ⟨_, .rep_full e mn s⟩
  | loop_more hm _ hp _ ih ih' =>
    intro mn
    obtain ⟨o, h⟩ := ih; obtain ⟨o', h'⟩ := ih' (mn - 1)
    cases bill_as h hp
    exact ⟨_, by rw [Nat.add_assoc]; exact .rep_yes hm h h'⟩
  | loop_stop hm _ hp ho ih =>
    intro mn
    obtain ⟨o, h⟩ := ih
    rename_i p _ _ _
    cases bill_as h hp
    cases p with
    | ok r ns => exact absurd rfl (ho r ns)
    | fail =>
      cases mn with
      | zero => exact ⟨_, .rep_no hm h⟩
      | succ mn => exact ⟨_, .rep_few hm (by omega) h⟩
    | crit w q => exact ⟨_, .rep_stop hm h⟩

/-! ### Constant, fair and linear costs -/

/-- what of the text has been paid for -/
def paid (s : Str) : Verdict → Nat
  | .yes r => s.length - r.length
  | _ => s.length

/-- a constant cost -/
def Flat (G : Str → Option Expr) (e : Expr) : Prop := ∃ K, ∀ s c o, Bill G e s c o → c ≤ K
/-- a cost proportional to what is consumed, if it matches -/
def Fair (G : Str → Option Expr) (e : Expr) : Prop := ∃ K, ∀ s c o, Bill G e s c o → c ≤ K * (paid s o + 1)
/-- a constant cost of failure -/
def Sharp (G : Str → Option Expr) (e : Expr) : Prop := ∃ K, ∀ s c, Bill G e s c .no → c ≤ K
/-- a cost proportional to the length -/
def Lin (G : Str → Option Expr) (e : Expr) : Prop := ∃ K, ∀ s c o, Bill G e s c o → c ≤ K * (s.length + 1)

theorem paid_le (s : Str) (o) : paid s o ≤ s.length := by cases o <;> simp [paid]

theorem Flat.fair {e} : Flat G e → Fair G e
  | ⟨K, h⟩ => ⟨K, fun s c o hb => (h s c o hb).trans (Nat.le_mul_of_pos_right _ (by omega))⟩
theorem Flat.sharp {e} : Flat G e → Sharp G e
  | ⟨K, h⟩ => ⟨K, fun s c hb => h s c _ hb⟩
theorem Fair.lin {e} : Fair G e → Lin G e
  | ⟨K, h⟩ => ⟨K, fun s c o hb => (h s c o hb).trans (Nat.mul_le_mul_left _ (by have := paid_le s o; omega))⟩
theorem Flat.lin {e} (h : Flat G e) : Lin G e := h.fair.lin

theorem flat_simple (a) : Flat G (.simple a) := ⟨1, fun s c o h => by cases h; exact Nat.le_refl 1⟩
theorem flat_and_nil : Flat G (.and []) := ⟨1, fun s c o h => by cases h; exact Nat.le_refl 1⟩
theorem flat_or_nil : Flat G (.or []) := ⟨1, fun s c o h => by cases h; exact Nat.le_refl 1⟩
theorem flat_and {e es} : Flat G e → Flat G (.and es) → Flat G (.and (e :: es))
  | ⟨K, h⟩, ⟨K', h'⟩ => ⟨K + K' + 1, fun s c o hb => by
    cases hb with
    | and_yes h1 h2 => have := h _ _ _ h1; have := h' _ _ _ h2; omega
    | and_no h1 => have := h _ _ _ h1; omega
    | and_stop h1 => have := h _ _ _ h1; omega⟩
theorem flat_or {e es} : Flat G e → Flat G (.or es) → Flat G (.or (e :: es))
  | ⟨K, h⟩, ⟨K', h'⟩ => ⟨K + K' + 1, fun s c o hb => by
    cases hb with
    | or_no h1 h2 => have := h _ _ _ h1; have := h' _ _ _ h2; omega
    | or_yes h1 => have := h _ _ _ h1; omega
    | or_stop h1 => have := h _ _ _ h1; omega⟩
theorem flat_not {e} : Flat G e → Flat G (.not e)
  | ⟨K, h⟩ => ⟨K + 1, fun s c o hb => by
    cases hb with
    | not_no h1 => have := h _ _ _ h1; omega
    | not_yes h1 => have := h _ _ _ h1; omega
    | not_stop h1 => have := h _ _ _ h1; omega⟩
theorem flat_call {n e} (hg : G n = some e) : Flat G e → Flat G (.ruleName n)
  | ⟨K, h⟩ => ⟨K + 1, fun s c o hb => by
    cases hb with
    | call hg' h1 => rw [hg] at hg'; cases hg'; have := h _ _ _ h1; omega
    | missing hg' => rw [hg] at hg'; cases hg'⟩

theorem fair_call {n e} (hg : G n = some e) : Fair G e → Fair G (.ruleName n)
  | ⟨K, h⟩ => ⟨K + 1, fun s c o hb => by
    cases hb with
    | call hg' h1 => rw [hg] at hg'; cases hg'; have := h _ _ _ h1; rw [Nat.succ_mul]; omega
    | missing hg' => rw [hg] at hg'; cases hg'⟩

theorem sharp_call {n e} (hg : G n = some e) : Sharp G e → Sharp G (.ruleName n)
  | ⟨K, h⟩ => ⟨K + 1, fun s c hb => by
    cases hb with
    | call hg' h1 => rw [hg] at hg'; cases hg'; have := h _ _ h1; omega⟩

theorem lin_call {n e} (hg : G n = some e) : Lin G e → Lin G (.ruleName n)
  | ⟨K, h⟩ => ⟨K + 1, fun s c o hb => by
    cases hb with
    | call hg' h1 => rw [hg] at hg'; cases hg'; have := h _ _ _ h1; rw [Nat.succ_mul]; omega
    | missing hg' => rw [hg] at hg'; cases hg'⟩

/-- `K` and `K'` times what two parts of a text cost -/
theorem fair_sum {K K' a b n : Nat} (h : a + b ≤ n) : K * (a + 1) + K' * (b + 1) ≤ (K + K') * (n + 1) := by
  rw [Nat.add_mul]
  exact Nat.add_le_add (Nat.mul_le_mul_left _ (by omega)) (Nat.mul_le_mul_left _ (by omega))

theorem fair_and {e es} : Fair G e → Fair G (.and es) → Fair G (.and (e :: es))
  | ⟨K, h⟩, ⟨K', h'⟩ => ⟨K + K' + 1, fun s c o hb => by
    rw [Nat.succ_mul]
    cases hb with
    | @and_yes _ _ _ r _ _ _ h1 h2 =>
      have := bill_le h1
      refine (Nat.add_le_add (h _ _ _ h1) (h' _ _ _ h2)).trans ((fair_sum (n := paid s o) ?_).trans (by omega))
      cases o with
      | yes q => have := bill_le h2; simp only [paid]; omega
      | no => simp only [paid]; omega
      | stop => simp only [paid]; omega
    | and_no h1 => have := h _ _ _ h1; rw [Nat.add_mul]; omega
    | and_stop h1 => have := h _ _ _ h1; rw [Nat.add_mul]; omega⟩

theorem fair_or {e es} : Fair G e → Sharp G e → Fair G (.or es) → Fair G (.or (e :: es))
  | ⟨K, h⟩, ⟨K1, h1⟩, ⟨K', h'⟩ => ⟨K + K1 + K' + 1, fun s c o hb => by
    rw [Nat.succ_mul, Nat.add_mul, Nat.add_mul]
    cases hb with
    | or_no h2 h3 =>
      have := h1 _ _ h2
      have := h' _ _ _ h3
      have := Nat.le_mul_of_pos_right K1 (Nat.succ_pos (paid s o))
      simp only [Nat.succ_eq_add_one] at this
      omega
    | or_yes h1 => have := h _ _ _ h1; omega
    | or_stop h1 => have := h _ _ _ h1; omega⟩

theorem sharp_or {e es} : Sharp G e → Sharp G (.or es) → Sharp G (.or (e :: es))
  | ⟨K, h⟩, ⟨K', h'⟩ => ⟨K + K' + 1, fun s c hb => by
    cases hb with
    | or_no h2 h3 => have := h _ _ h2; have := h' _ _ h3; omega⟩

theorem lin_and {e es} : Lin G e → Lin G (.and es) → Lin G (.and (e :: es))
  | ⟨K, h⟩, ⟨K', h'⟩ => ⟨K + K' + 1, fun s c o hb => by
    rw [Nat.succ_mul, Nat.add_mul]
    cases hb with
    | and_yes h1 h2 =>
      have := h _ _ _ h1
      have := (h' _ _ _ h2).trans (Nat.mul_le_mul_left _ (Nat.add_le_add_right (bill_le h1) 1))
      omega
    | and_no h1 => have := h _ _ _ h1; omega
    | and_stop h1 => have := h _ _ _ h1; omega⟩

theorem lin_or {e es} : Lin G e → Lin G (.or es) → Lin G (.or (e :: es))
  | ⟨K, h⟩, ⟨K', h'⟩ => ⟨K + K' + 1, fun s c o hb => by
    rw [Nat.succ_mul, Nat.add_mul]
    cases hb with
    | or_no h1 h2 => have := h _ _ _ h1; have := h' _ _ _ h2; omega
    | or_yes h1 => have := h _ _ _ h1; omega
    | or_stop h1 => have := h _ _ _ h1; omega⟩

theorem lin_not {e} : Lin G e → Lin G (.not e)
  | ⟨K, h⟩ => ⟨K + 1, fun s c o hb => by
    rw [Nat.succ_mul]
    cases hb with
    | not_no h1 => have := h _ _ _ h1; omega
    | not_yes h1 => have := h _ _ _ h1; omega
    | not_stop h1 => have := h _ _ _ h1; omega⟩

theorem rep_none_zero {e mn s c o} (h : Bill G (.rep e mn (some 0)) s c o) : c = 1 ∧ o = .yes s := by
  cases h with
  | rep_full => exact ⟨rfl, rfl⟩
  | rep_yes hm => exact absurd rfl hm
  | rep_no hm => exact absurd rfl hm
  | rep_few hm => exact absurd rfl hm
  | rep_stop hm => exact absurd rfl hm

theorem lin_opt {e mn} : Lin G e → Lin G (.rep e mn (some 1))
  | ⟨K, h⟩ => ⟨K + 1, fun s c o hb => by
    rw [Nat.succ_mul]
    cases hb with
    | rep_yes _ h1 h2 =>
      have := h _ _ _ h1
      have := (rep_none_zero h2).1
      omega
    | rep_no _ h1 => have := h _ _ _ h1; omega
    | rep_few _ _ h1 => have := h _ _ _ h1; omega
    | rep_stop _ h1 => have := h _ _ _ h1; omega⟩

/-- the rounds of a repetition, and the last one -/
theorem star_rounds {e K} (he : ¬ CanEmpty G e) (h : ∀ s c r, Bill G e s c (.yes r) → c ≤ K * (s.length - r.length + 1)) :
    ∀ {mn s c o}, Bill G (.rep e mn none) s c o → ∃ q c1 o1, Bill G e q c1 o1 ∧ (∀ r, o1 ≠ .yes r) ∧
      q.length ≤ s.length ∧ (∀ r, o = .yes r → r = q) ∧ (o = .stop ↔ o1 = .stop) ∧ c ≤ 2 * K * (s.length - q.length) + c1 + 1 := by
  intro mn s c o hb
  generalize hx : Expr.rep e mn none = x at hb
  induction hb generalizing mn with
  | rep_full => cases hx
  | rep_yes hm h1 h2 _ ih2 =>
    cases hx
    obtain ⟨q, c1, o1, hq, hn, hl, ho, hs, hc⟩ := ih2 rfl
    have hlt := bill_lt he h1
    refine ⟨q, c1, o1, hq, hn, by omega, ho, hs, ?_⟩
    have h3 := h _ _ _ h1
    rename_i t r a b p _
    have h4 : K * (t.length - r.length + 1) ≤ 2 * K * (t.length - r.length) := by
      rw [Nat.mul_comm 2 K, Nat.mul_assoc]
      exact Nat.mul_le_mul_left _ (by omega)
    have h5 : 2 * K * (t.length - q.length) = 2 * K * (t.length - r.length) + 2 * K * (r.length - q.length) := by
      rw [← Nat.mul_add]; congr 1; omega
    omega
  | rep_no hm h1 => cases hx; exact ⟨_, _, _, h1, by simp, Nat.le_refl _, by simp, by simp, by omega⟩
  | rep_few hm _ h1 => cases hx; exact ⟨_, _, _, h1, by simp, Nat.le_refl _, by simp, by simp, by omega⟩
  | rep_stop hm h1 => cases hx; exact ⟨_, _, _, h1, by simp, Nat.le_refl _, by simp, by simp, by omega⟩
  | _ => cases hx

/-- a repetition whose rounds fail at a constant cost is fair -/
theorem fair_star {e mn} (he : ¬ CanEmpty G e) : Fair G e → Sharp G e → Fair G (.rep e mn none)
  | ⟨K, h⟩, ⟨K', h'⟩ => ⟨2 * K + K + K' + 1, fun s c o hb => by
    obtain ⟨q, c1, o1, hq, hn, hl, ho, hs, hc⟩ := star_rounds he (fun s c r h1 => h _ _ _ h1) hb
    have hu : s.length - q.length ≤ paid s o := by
      cases o with
      | yes r => cases ho r rfl; simp [paid]
      | no => simp only [paid]; omega
      | stop => simp only [paid]; omega
    have h1 := Nat.mul_le_mul_left (2 * K) hu
    have h2 : c1 ≤ K * (paid s o + 1) + K' := by
      cases o1 with
      | yes r => exact absurd rfl (hn r)
      | no => have := h' _ _ hq; omega
      | stop =>
        have := h _ _ _ hq
        cases hs.mpr rfl
        simp only [paid] at this ⊢
        have := Nat.mul_le_mul_left K (Nat.succ_le_succ hl)
        simp only [Nat.succ_eq_add_one] at this
        omega
    have h3 : K' ≤ K' * (paid s o + 1) := Nat.le_mul_of_pos_right _ (by omega)
    have h4 : 2 * K * (paid s o) ≤ 2 * K * (paid s o + 1) := Nat.mul_le_mul_left _ (by omega)
    rw [Nat.succ_mul, Nat.add_mul, Nat.add_mul]
    omega⟩

/-- a repetition of something fair is linear -/
theorem lin_star {e mn} (he : ¬ CanEmpty G e) : Fair G e → Lin G (.rep e mn none)
  | ⟨K, h⟩ => ⟨2 * K + K + 1, fun s c o hb => by
    obtain ⟨q, c1, o1, hq, hn, hl, ho, hs, hc⟩ := star_rounds he (fun s c r h1 => h _ _ _ h1) hb
    have h1 := Nat.mul_le_mul_left (2 * K) (show s.length - q.length ≤ s.length + 1 by omega)
    have h2 := (h _ _ _ hq).trans (Nat.mul_le_mul_left K (show paid q o1 + 1 ≤ s.length + 1 by have := paid_le q o1; omega))
    rw [Nat.succ_mul, Nat.add_mul]
    omega⟩

/-- a repetition that may be empty does not fail -/
theorem star_not_no {e s c} (h : Bill G (.rep e 0 none) s c .no) : False := by
  generalize hx : Expr.rep e 0 none = x at h
  generalize ho : Verdict.no = o at h
  induction h with
  | rep_yes _ _ _ _ ih => cases hx; exact ih rfl ho
  | rep_few _ hn _ => cases hx; omega
  | simple _ => cases hx
  | _ => first | (cases hx; done) | cases ho

/-! ### Settled by the next character -/

/-- what is known about the next character: which it is (if any), or which it is not -/
inductive Next where
  | is (x : Option Char)
  | isNot (l : List Char)

def Next.holds : Next → Str → Prop
  | .is x, s => s.head? = x
  | .isNot l, s => ∀ y ∈ l, s.head? ≠ some y

def Next.misses : Next → Char → Bool
  | .is x, y => x != some y
  | .isNot l, y => l.contains y

/-- `peek G f x e`: `e` matches nothing (`true`) or fails (`false`), at a cost of at most the number, whenever `x` holds -/
def peek (G : Str → Option Expr) : Nat → Next → Expr → Option (Bool × Nat)
  | 0, _, _ => none
  | f + 1, x, e =>
    match x, e with
    | x, .simple (.literal (y :: _)) => if x.misses y then some (false, 1) else none
    | .is none, .simple (.mtch _ _) => some (false, 1)
    | .is (some y), .simple (.mtch cs rs) =>
      if cs.contains y || rs.any (fun r => r.1.toNat ≤ y.toNat && y.toNat ≤ r.2.toNat) then none else some (false, 1)
    | .is none, .simple .dot => some (false, 1)
    | _, .and [] => some (true, 1)
    | x, .and (e :: es) =>
      match peek G f x e with
      | some (false, k) => some (false, k + 1)
      | some (true, k) =>
        match peek G f x (.and es) with
        | some (b, k') => some (b, k + k')
        | none => none
      | none => none
    | _, .or [] => some (false, 1)
    | x, .or (e :: es) =>
      match peek G f x e with
      | some (true, k) => some (true, k + 1)
      | some (false, k) =>
        match peek G f x (.or es) with
        | some (b, k') => some (b, k + k')
        | none => none
      | none => none
    | x, .not e =>
      match peek G f x e with
      | some (b, k) => some (!b, k + 1)
      | none => none
    | x, .rep e 0 (some (_ + 1)) =>
      match peek G f x e with
      | some (false, k) => some (true, k + 1)
      | _ => none
    | x, .rep e 0 none =>
      match peek G f x e with
      | some (false, k) => some (true, k + 1)
      | _ => none
    | x, .ruleName n =>
      match G n with
      | some e =>
        match peek G f x e with
        | some (b, k) => some (b, k + 1)
        | none => none
      | none => none
    | _, _ => none

theorem miss_head {x : Next} {y l s} (hx : x.holds s) (h : x.misses y = true) : ¬ (y :: l) <+: s := by
  rintro ⟨t, rfl⟩
  cases x with
  | is x =>
    simp only [Next.holds, List.cons_append, List.head?_cons] at hx
    simp [Next.misses, ← hx] at h
  | isNot l =>
    simp only [Next.misses, List.contains_eq_mem, decide_eq_true_eq] at h
    exact hx y h rfl

theorem peek_sound : ∀ {f x e b k s c o}, peek G f x e = some (b, k) → x.holds s → Bill G e s c o →
    c ≤ k ∧ o = if b then .yes s else .no := by
  intro f
  induction f with
  | zero => intro x e b k s c o h; simp [peek] at h
  | succ f ih =>
    intro x e b k s c o h hx hb
    simp only [peek] at h
    split at h
    · split at h
      · cases h
        cases hb with
        | simple hp =>
          cases hp with
          | lit_ok => exact absurd ⟨_, rfl⟩ (miss_head hx ‹_›)
          | lit_fail => exact ⟨Nat.le_refl _, rfl⟩
      · cases h
    · cases h
      cases hb with
      | simple hp =>
        cases hp with
        | class_ok => cases hx
        | class_fail => cases hx
        | class_end => exact ⟨Nat.le_refl _, rfl⟩
    · split at h
      · cases h
      · rename_i hn
        cases h
        cases hb with
        | simple hp =>
          cases hp with
          | class_ok _ _ _ _ hc =>
            simp only [Next.holds, List.head?_cons, Option.some.injEq] at hx
            subst hx
            refine absurd ?_ hn
            rcases hc with hc | ⟨r, hr, h1, h2⟩
            · simp [hc]
            · rw [Bool.or_eq_true, List.any_eq_true]
              exact .inr ⟨r, hr, by simp [h1, h2]⟩
          | class_fail => exact ⟨Nat.le_refl _, rfl⟩
          | class_end => exact ⟨Nat.le_refl _, rfl⟩
    · cases h
      cases hb with
      | simple hp =>
        cases hp with
        | dot_ok => cases hx
        | dot_end => exact ⟨Nat.le_refl _, rfl⟩
    · cases h; cases hb; exact ⟨Nat.le_refl _, rfl⟩
    · split at h
      · cases h
        cases hb with
        | and_yes h1 h2 => cases (ih ‹_› hx h1).2
        | and_no h1 => exact ⟨Nat.succ_le_succ (ih ‹_› hx h1).1, rfl⟩
        | and_stop h1 => cases (ih ‹_› hx h1).2
      · split at h
        · cases h
          cases hb with
          | and_yes h1 h2 =>
            have h3 := ih ‹peek G f x _ = some (true, _)› hx h1
            cases h3.2
            have h4 := ih ‹peek G f x (.and _) = _› hx h2
            exact ⟨Nat.add_le_add h3.1 h4.1, h4.2⟩
          | and_no h1 => cases (ih ‹peek G f x _ = some (true, _)› hx h1).2
          | and_stop h1 => cases (ih ‹peek G f x _ = some (true, _)› hx h1).2
        · cases h
      · cases h
    · cases h; cases hb; exact ⟨Nat.le_refl _, rfl⟩
    · split at h
      · cases h
        cases hb with
        | or_no h1 h2 => cases (ih ‹_› hx h1).2
        | or_yes h1 => have := ih ‹_› hx h1; cases this.2; exact ⟨Nat.succ_le_succ this.1, rfl⟩
        | or_stop h1 => cases (ih ‹_› hx h1).2
      · split at h
        · cases h
          cases hb with
          | or_no h1 h2 =>
            have h3 := ih ‹peek G f x _ = some (false, _)› hx h1
            have h4 := ih ‹peek G f x (.or _) = _› hx h2
            exact ⟨Nat.add_le_add h3.1 h4.1, h4.2⟩
          | or_yes h1 => cases (ih ‹peek G f x _ = some (false, _)› hx h1).2
          | or_stop h1 => cases (ih ‹peek G f x _ = some (false, _)› hx h1).2
        · cases h
      · cases h
    · split at h
      · rename_i b' _ hp
        cases h
        cases hb with
        | not_yes h1 =>
          have := ih hp hx h1
          cases b' with
          | true => exact ⟨Nat.succ_le_succ this.1, rfl⟩
          | false => cases this.2
        | not_no h1 =>
          have := ih hp hx h1
          cases b' with
          | true => cases this.2
          | false => exact ⟨Nat.succ_le_succ this.1, rfl⟩
        | not_stop h1 =>
          have := ih hp hx h1
          cases b' with
          | true => cases this.2
          | false => cases this.2
      · cases h
    · split at h
      · cases h
        cases hb with
        | rep_yes _ h1 _ => cases (ih ‹_› hx h1).2
        | rep_no _ h1 => exact ⟨Nat.succ_le_succ (ih ‹_› hx h1).1, rfl⟩
        | rep_few _ hn _ => omega
        | rep_stop _ h1 => cases (ih ‹_› hx h1).2
      · cases h
    · split at h
      · cases h
        cases hb with
        | rep_yes _ h1 _ => cases (ih ‹_› hx h1).2
        | rep_no _ h1 => exact ⟨Nat.succ_le_succ (ih ‹_› hx h1).1, rfl⟩
        | rep_few _ hn _ => omega
        | rep_stop _ h1 => cases (ih ‹_› hx h1).2
      · cases h
    · split at h
      · rename_i e' hg
        split at h
        · cases h
          cases hb with
          | call hg' h1 =>
            rw [hg] at hg'; cases hg'
            have := ih ‹_› hx h1
            exact ⟨Nat.succ_le_succ this.1, this.2⟩
          | missing hg' => rw [hg] at hg'; cases hg'
        · cases h
      · cases h
    · cases h

end
end DP
