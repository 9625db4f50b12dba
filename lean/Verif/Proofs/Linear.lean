/-
LL(1) rules: the work is proportional to the length of the text.
-/
import Verif.Spec.Linear
import Verif.Spec.Effort
import Verif.Proofs.ContextFree
import Verif.Proofs.Meter
import Mathlib.Data.Nat.Find

namespace DP
open Spec

/-! ### The work, and how far the text was read -/

/-- `Meas G t s c m`: doing `t` at `s` means matching `c` expressions, the farthest one `m` characters after `s`
begins. -/
inductive Meas (G : Str → Option Expr) : Task → Str → Nat → Nat → Prop
  | simple_ok {a s r ns} : Peg G (.simple a) s (.ok r ns) → Meas G (.one (.simple a)) s 1 (s.length - r.length)
  | simple_no {a s o} : Peg G (.simple a) s o → (∀ r ns, o ≠ .ok r ns) → Meas G (.one (.simple a)) s 1 0
  | and {es s c m} : Meas G (.seq es) s c m → Meas G (.one (.and es)) s (c + 1) m
  | or {es s c m} : Meas G (.alt es) s c m → Meas G (.one (.or es)) s (c + 1) m
  | not {e s c m} : Meas G (.one e) s c m → Meas G (.one (.not e)) s (c + 1) m
  | rep {e mn mx s c m} : Meas G (.loop e mx) s c m → Meas G (.one (.rep e mn mx)) s (c + 1) m
  | call {n e s c m} : G n = some e → Meas G (.one e) s c m → Meas G (.one (.ruleName n)) s (c + 1) m
  | missing {n s} : G n = none → Meas G (.one (.ruleName n)) s 1 0
  | seq_nil (s) : Meas G (.seq []) s 0 0
  | seq_more {e es s r ns c m c' m'} : Meas G (.one e) s c m → Peg G e s (.ok r ns) → Meas G (.seq es) r c' m' →
      Meas G (.seq (e :: es)) s (c + c') (max m (s.length - r.length + m'))
  | seq_stop {e es s o c m} : Meas G (.one e) s c m → Peg G e s o → (∀ r ns, o ≠ .ok r ns) → Meas G (.seq (e :: es)) s c m
  | alt_nil (s) : Meas G (.alt []) s 0 0
  | alt_more {e es s c m c' m'} : Meas G (.one e) s c m → Peg G e s .fail → Meas G (.alt es) s c' m' →
      Meas G (.alt (e :: es)) s (c + c') (max m m')
  | alt_stop {e es s o c m} : Meas G (.one e) s c m → Peg G e s o → o ≠ .fail → Meas G (.alt (e :: es)) s c m
  | loop_full (e s) : Meas G (.loop e (some 0)) s 0 0
  | loop_more {e mx s r ns c m c' m'} : mx ≠ some 0 → Meas G (.one e) s c m → Peg G e s (.ok r ns) →
      Meas G (.loop e (mx.map (· - 1))) r c' m' → Meas G (.loop e mx) s (c + c') (max m (s.length - r.length + m'))
  | loop_stop {e mx s o c m} : mx ≠ some 0 → Meas G (.one e) s c m → Peg G e s o → (∀ r ns, o ≠ .ok r ns) →
      Meas G (.loop e mx) s c m

section
variable {G : Str → Option Expr}

theorem meas_of_effort {t s c d} (h : Effort G t s c d) : ∃ m, Meas G t s c m := by
  induction h with
  | simple a s =>
    obtain ⟨o, ho⟩ := total_atom G a s
    cases o with
    | ok r ns => exact ⟨_, .simple_ok ho⟩
    | fail => exact ⟨_, .simple_no ho (by simp)⟩
    | crit w q => exact ⟨_, .simple_no ho (by simp)⟩
  | and _ ih => obtain ⟨m, h⟩ := ih; exact ⟨m, .and h⟩
  | or _ ih => obtain ⟨m, h⟩ := ih; exact ⟨m, .or h⟩
  | not _ ih => obtain ⟨m, h⟩ := ih; exact ⟨m, .not h⟩
  | rep _ ih => obtain ⟨m, h⟩ := ih; exact ⟨m, .rep h⟩
  | call hg _ ih => obtain ⟨m, h⟩ := ih; exact ⟨m, .call hg h⟩
  | missing hg => exact ⟨0, .missing hg⟩
  | seq_nil s => exact ⟨0, .seq_nil s⟩
  | seq_more _ hp _ ih ih' =>
    obtain ⟨m, h⟩ := ih
    obtain ⟨m', h'⟩ := ih'
    exact ⟨_, .seq_more h hp h'⟩
  | seq_stop _ hp ho ih => obtain ⟨m, h⟩ := ih; exact ⟨m, .seq_stop h hp ho⟩
  | alt_nil s => exact ⟨0, .alt_nil s⟩
  | alt_more _ hp _ ih ih' =>
    obtain ⟨m, h⟩ := ih
    obtain ⟨m', h'⟩ := ih'
    exact ⟨_, .alt_more h hp h'⟩
  | alt_stop _ hp ho ih => obtain ⟨m, h⟩ := ih; exact ⟨m, .alt_stop h hp ho⟩
  | loop_full e s => exact ⟨0, .loop_full e s⟩
  | loop_more hm _ hp _ ih ih' =>
    obtain ⟨m, h⟩ := ih
    obtain ⟨m', h'⟩ := ih'
    exact ⟨_, .loop_more hm h hp h'⟩
  | loop_stop hm _ hp ho ih => obtain ⟨m, h⟩ := ih; exact ⟨m, .loop_stop hm h hp ho⟩

theorem ok_length {e s r ns} (h : Peg G e s (.ok r ns)) : r.length ≤ s.length := (peg_length h _ _ rfl).1

theorem meas_le {t s c m} (h : Meas G t s c m) : m ≤ s.length := by
  induction h with
  | simple_ok _ => omega
  | and _ ih | or _ ih | not _ ih | rep _ ih | call _ _ ih | seq_stop _ _ _ ih | alt_stop _ _ _ ih | loop_stop _ _ _ _ ih => exact ih
  | seq_more _ hp _ ih ih' => have := ok_length hp; omega
  | loop_more _ _ hp _ ih ih' => have := ok_length hp; omega
  | alt_more _ _ _ ih ih' => omega
  | _ => exact Nat.zero_le _

/-- the expression of a task -/
def Fits : Task → Expr → Prop
  | .one e, x => x = e
  | .seq es, x => x = .and es
  | .alt es, x => x = .or es
  | .loop e mx, x => ∃ mn, x = .rep e mn mx

theorem inv_rep_ok {e mn mx s r ns} (h : Peg G (.rep e mn mx) s (.ok r ns)) :
    (mx = some 0 ∧ r = s) ∨ (mx ≠ some 0 ∧ mn = 0 ∧ r = s ∧ Peg G e s .fail) ∨
    (mx ≠ some 0 ∧ ∃ r1 ns1 ns2, Peg G e s (.ok r1 ns1) ∧ Peg G (.rep e (mn - 1) (mx.map (· - 1))) r1 (.ok r ns2)) := by
  cases h with
  | rep_full => exact .inl ⟨rfl, rfl⟩
  | rep_stop hm h => exact .inr (.inl ⟨hm, rfl, rfl, h⟩)
  | rep_more hm h1 h2 => exact .inr (.inr ⟨hm, _, _, _, h1, h2⟩)

/-- what was consumed was read -/
theorem meas_consumed {t s c m} (h : Meas G t s c m) :
    ∀ x, Fits t x → ∀ r ns, Peg G x s (.ok r ns) → s.length ≤ r.length + m := by
  induction h with
  | simple_ok h =>
    rintro x rfl r ns hp
    cases peg_det h hp
    have := ok_length h
    omega
  | simple_no h ho => rintro x rfl r ns hp; exact absurd (peg_det h hp) (ho _ _)
  | and _ ih => rintro x rfl r ns hp; exact ih _ rfl _ _ hp
  | or _ ih => rintro x rfl r ns hp; exact ih _ rfl _ _ hp
  | not _ ih => rintro x rfl r ns hp; cases hp <;> omega
  | rep _ ih => rintro x rfl r ns hp; exact ih _ ⟨_, rfl⟩ _ _ hp
  | call hg _ ih =>
    rintro x rfl r ns hp
    cases hp with
    | call_ok hg' hp => rw [hg] at hg'; cases hg'; exact ih _ rfl _ _ hp
  | missing hg =>
    rintro x rfl r ns hp
    cases hp with
    | call_ok hg' hp => rw [hg] at hg'; cases hg'
  | seq_nil s => rintro x rfl r ns hp; cases hp; omega
  | seq_more _ h1 _ ih ih' =>
    rintro x rfl r ns hp
    cases hp with
    | and_ok h2 h3 =>
      cases peg_det h1 h2
      have := ih' _ rfl _ _ h3
      have := ok_length h1
      omega
  | seq_stop _ h ho ih =>
    rintro x rfl r ns hp
    cases hp with
    | and_ok h2 h3 => exact absurd (peg_det h h2) (ho _ _)
  | alt_nil s => rintro x rfl r ns hp; cases hp
  | alt_more _ h1 _ ih ih' =>
    rintro x rfl r ns hp
    cases hp with
    | or_ok h => cases peg_det h1 h
    | or_next _ h => have := ih' _ rfl _ _ h; omega
  | alt_stop _ h ho ih =>
    rintro x rfl r ns hp
    cases hp with
    | or_ok h => exact ih _ rfl _ _ h
    | or_next h' _ => exact absurd (peg_det h h') ho
  | loop_full e s =>
    rintro x ⟨mn, rfl⟩ r ns hp
    rcases inv_rep_ok hp with ⟨_, rfl⟩ | ⟨h, _⟩ | ⟨h, _⟩
    · omega
    · exact absurd rfl h
    · exact absurd rfl h
  | loop_more hm _ h1 _ ih ih' =>
    rintro x ⟨mn, rfl⟩ r ns hp
    rcases inv_rep_ok hp with ⟨h, _⟩ | ⟨_, _, _, h⟩ | ⟨_, r1, ns1, ns2, h2, h3⟩
    · exact absurd h hm
    · cases peg_det h1 h
    · cases peg_det h1 h2
      have := ih' _ ⟨_, rfl⟩ _ _ h3
      have := ok_length h1
      omega
  | loop_stop hm _ h ho ih =>
    rintro x ⟨mn, rfl⟩ r ns hp
    rcases inv_rep_ok hp with ⟨h', _⟩ | ⟨_, _, rfl, h'⟩ | ⟨_, r1, ns1, ns2, h2, h3⟩
    · exact absurd h' hm
    · omega
    · exact absurd (peg_det h h2) (ho _ _)

/-! ### Expressions of the grammar -/

mutual
def esize : Expr → Nat
  | .simple _ => 1
  | .and es => esizes es + 1
  | .or es => esizes es + 1
  | .not e => esize e + 1
  | .rep e _ mx => esize e + mx.getD 0 + 2
  | .ruleName _ => 1
def esizes : List Expr → Nat
  | [] => 0
  | e :: es => esize e + esizes es + 1
end

def tsize : Task → Nat
  | .one e => esize e
  | .seq es => esizes es
  | .alt es => esizes es
  | .loop e mx => esize e + mx.getD 0 + 1

structure Fine (G : Str → Option Expr) (W : Nat) (x : Expr) : Prop where
  plain : Plain G x
  repOK : RepOK G x
  live : ∃ y, Follow G x y
  prod : ∀ y, Sub y x → ∃ u ns, Gen G y u ns
  size : esize x ≤ W

theorem gen_rep {e u ns} (h : Gen G e u ns) : ∀ mn mx, ∃ u ns, Gen G (.rep e mn mx) u ns
  | 0, mx => ⟨_, _, .none e mx⟩
  | mn + 1, mx => by
    by_cases hm : mx = some 0
    · subst hm; exact ⟨_, _, .full e _⟩
    · obtain ⟨v, ms, h'⟩ := gen_rep h mn (mx.map (· - 1))
      exact ⟨_, _, .more hm h h'⟩

theorem fine_head {W e es} (h : Fine G W (.and (e :: es))) : Fine G W e where
  plain := (plain_and_cons h.plain).1
  repOK := repOK_and h.repOK _ (by simp)
  live := by
    obtain ⟨y, hy⟩ := h.live
    obtain ⟨u, ns, hg⟩ := h.prod _ (.refl _)
    cases hg with
    | @cons _ _ u v _ _ h1 h2 =>
      cases v with
      | nil => exact ⟨_, .last hy ⟨_, h2⟩⟩
      | cons c v => exact ⟨_, .next hy ⟨_, _, h2⟩⟩
  prod y hs := h.prod y (.and (by simp) hs)
  size := by have := h.size; simp only [esize, esizes] at this; omega

theorem fine_tail {W e es} (h : Fine G W (.and (e :: es))) : Fine G W (.and es) where
  plain := (plain_and_cons h.plain).2
  repOK := repOK_and_cons h.repOK
  live := by obtain ⟨y, hy⟩ := h.live; exact ⟨_, .rest hy⟩
  prod y hs := by
    cases hs with
    | refl =>
      obtain ⟨u, ns, hg⟩ := h.prod _ (.refl _)
      cases hg with
      | cons h1 h2 => exact ⟨_, _, h2⟩
    | and hm hs => exact h.prod y (.and (by simp [hm]) hs)
  size := by have := h.size; simp only [esize, esizes] at this ⊢; omega

theorem fine_or_head {W e es} (h : Fine G W (.or (e :: es))) : Fine G W e where
  plain := (plain_or_cons h.plain).1
  repOK b mn hs := h.repOK b mn (.or (by simp) hs)
  live := by obtain ⟨y, hy⟩ := h.live; exact ⟨_, .alternative hy⟩
  prod y hs := h.prod y (.or (by simp) hs)
  size := by have := h.size; simp only [esize, esizes] at this; omega

theorem fine_or_tail {W e e' es} (h : Fine G W (.or (e :: e' :: es))) : Fine G W (.or (e' :: es)) where
  plain := (plain_or_cons h.plain).2
  repOK := repOK_or_cons h.repOK
  live := by obtain ⟨y, hy⟩ := h.live; exact ⟨_, .alternatives hy⟩
  prod y hs := by
    cases hs with
    | refl =>
      obtain ⟨u, ns, hg⟩ := h.prod e' (.or (by simp) (.refl _))
      exact ⟨_, _, .or (by simp) hg⟩
    | or hm hs => exact h.prod y (.or (List.mem_cons_of_mem _ hm) hs)
  size := by have := h.size; simp only [esize, esizes] at this ⊢; omega

theorem fine_body {W e mn mx} (h : Fine G W (.rep e mn mx)) (hm : mx ≠ some 0) : Fine G W e where
  plain := plain_rep h.plain
  repOK b mn' hs := h.repOK b mn' (.rep hs)
  live := by
    obtain ⟨y, hy⟩ := h.live
    obtain ⟨u, ns, hg⟩ := h.prod e (.rep (.refl _))
    obtain ⟨v, ms, hv⟩ := gen_rep hg (mn - 1) (mx.map (· - 1))
    cases v with
    | nil => exact ⟨_, .once hy hm ⟨_, hv⟩⟩
    | cons c v => exact ⟨_, .again hy hm ⟨_, _, hv⟩⟩
  prod y hs := h.prod y (.rep hs)
  size := by have := h.size; simp only [esize] at this; omega

theorem fine_again {W e mn mx} (h : Fine G W (.rep e mn mx)) (hm : mx ≠ some 0) :
    Fine G W (.rep e (mn - 1) (mx.map (· - 1))) where
  plain := .rep (plain_rep h.plain)
  repOK := repOK_rep h.repOK
  live := by obtain ⟨y, hy⟩ := h.live; exact ⟨_, .repeats hy hm⟩
  prod y hs := by
    obtain ⟨u, ns, hg⟩ := h.prod e (.rep (.refl _))
    cases hs with
    | refl => exact gen_rep hg _ _
    | rep hs => exact h.prod y (.rep hs)
  size := by
    have := h.size
    simp only [esize] at this ⊢
    cases mx with
    | none => simpa using this
    | some m => simp at this ⊢; omega

/-- what is assumed of the rules -/
structure Setting (G : Str → Option Expr) (W N : Nat) (rk : Str → Nat) : Prop where
  plain : ∀ n e, G n = some e → Plain G e
  repOK : ∀ n e, G n = some e → RepOK G e
  prod : Productive G
  ll1 : LL1 G
  size : ∀ n e, G n = some e → esize e + 1 ≤ W
  rank : ∀ n e m, G n = some e → LeftCalls G e m → rk m < rk n
  ranks : ∀ n, rk n ≤ N

variable {W N : Nat} {rk : Str → Nat}

theorem fine_call (S : Setting G W N rk) {n e} (h : Fine G W (.ruleName n)) (hg : G n = some e) : Fine G W e where
  plain := S.plain n e hg
  repOK := S.repOK n e hg
  live := by obtain ⟨y, hy⟩ := h.live; exact ⟨_, .body hg hy⟩
  prod y hs := S.prod n e hg y hs
  size := by have := S.size n e hg; omega

/-! ### What is read begins what is derived -/

theorem first_of_ok {e s r ns} (h : Peg G e s (.ok r ns)) (hl : r.length < s.length) : ∃ c s', s = c :: s' ∧ First G e c := by
  obtain ⟨u, rfl, hg⟩ := gen_of_peg h _ _ rfl
  cases u with
  | nil => simp at hl
  | cons c u => exact ⟨c, u ++ r, rfl, _, _, hg⟩

theorem null_of_ok {e s r ns} (h : Peg G e s (.ok r ns)) (hl : r.length = s.length) : r = s ∧ Nullable G e := by
  obtain ⟨u, rfl, hg⟩ := gen_of_peg h _ _ rfl
  cases u with
  | nil => exact ⟨rfl, _, hg⟩
  | cons c u => simp at hl; omega

theorem first_and {e es c} (h : First G e c) (hes : ∃ v ms, Gen G (.and es) v ms) : First G (.and (e :: es)) c := by
  obtain ⟨u, ns, h⟩ := h
  obtain ⟨v, ms, h'⟩ := hes
  exact ⟨u ++ v, _, .cons h h'⟩

theorem first_and_null {e es c} (h : Nullable G e) (hes : First G (.and es) c) : First G (.and (e :: es)) c := by
  obtain ⟨ns, h⟩ := h
  obtain ⟨v, ms, h'⟩ := hes
  exact ⟨v, _, .cons h h'⟩

theorem first_rep {e mn mx c} (hm : mx ≠ some 0) (h : First G e c) : First G (.rep e mn mx) c := by
  obtain ⟨u, ns, h⟩ := h
  obtain ⟨v, ms, h'⟩ := gen_rep h (mn - 1) (mx.map (· - 1))
  exact ⟨u ++ v, _, .more hm h h'⟩

theorem first_rep_null {e mn mx c} (hm : mx ≠ some 0) (h : Nullable G e) (h' : First G (.rep e (mn - 1) (mx.map (· - 1))) c) :
    First G (.rep e mn mx) c := by
  obtain ⟨ns, h⟩ := h
  obtain ⟨v, ms, h'⟩ := h'
  exact ⟨v, _, .more hm h h'⟩

theorem alt_empty {s c m} (h : Meas G (.alt []) s c m) : c = 0 ∧ m = 0 := by cases h; exact ⟨rfl, rfl⟩

theorem meas_first (S : Setting G W N rk) {t s c m} (h : Meas G t s c m) :
    ∀ x, Fits t x → Fine G W x → 0 < m → ∃ a s', s = a :: s' ∧ First G x a := by
  induction h with
  | simple_ok h => rintro x rfl _ hm; exact first_of_ok h (by omega)
  | simple_no | missing | seq_nil | alt_nil | loop_full => intro _ _ _ hm; omega
  | and _ ih => rintro x rfl hf hm; exact ih _ rfl hf hm
  | or _ ih => rintro x rfl hf hm; exact ih _ rfl hf hm
  | not _ ih => rintro x rfl hf hm; cases hf.plain
  | rep _ ih => rintro x rfl hf hm; exact ih _ ⟨_, rfl⟩ hf hm
  | call hg _ ih =>
    rintro x rfl hf hm
    obtain ⟨a, s', h1, u, ns, h2⟩ := ih _ rfl (fine_call S hf hg) hm
    exact ⟨a, s', h1, u, _, .call hg h2⟩
  | @seq_more e es s r ns c m c' m' _ h1 _ ih ih' =>
    rintro x rfl hf hm
    have hd := (fine_tail hf).prod _ (.refl _)
    rcases Nat.lt_or_ge r.length s.length with hl | hl
    · obtain ⟨a, s', h2, h3⟩ := first_of_ok h1 hl
      exact ⟨a, s', h2, first_and h3 hd⟩
    · obtain ⟨rfl, hn⟩ := null_of_ok h1 (by have := ok_length h1; omega)
      rcases Nat.eq_zero_or_pos m with h0 | h0
      · obtain ⟨a, s', h2, h3⟩ := ih' _ rfl (fine_tail hf) (by omega)
        exact ⟨a, s', h2, first_and_null hn h3⟩
      · obtain ⟨a, s', h2, h3⟩ := ih _ rfl (fine_head hf) h0
        exact ⟨a, s', h2, first_and h3 hd⟩
  | seq_stop _ _ _ ih =>
    rintro x rfl hf hm
    obtain ⟨a, s', h2, h3⟩ := ih _ rfl (fine_head hf) hm
    exact ⟨a, s', h2, first_and h3 ((fine_tail hf).prod _ (.refl _))⟩
  | @alt_more e es s c m c' m' _ h1 h2 ih ih' =>
    rintro x rfl hf hm
    rcases Nat.eq_zero_or_pos m with h0 | h0
    · cases es with
      | nil => have := (alt_empty h2).2; omega
      | cons e' es =>
        obtain ⟨a, s', h2, u, ns, h3⟩ := ih' _ rfl (fine_or_tail hf) (by omega)
        cases h3 with
        | or hm h3 => exact ⟨a, s', h2, u, _, .or (List.mem_cons_of_mem _ hm) h3⟩
    · obtain ⟨a, s', h2, u, ns, h3⟩ := ih _ rfl (fine_or_head hf) h0
      exact ⟨a, s', h2, u, _, .or (by simp) h3⟩
  | alt_stop _ _ _ ih =>
    rintro x rfl hf hm
    obtain ⟨a, s', h2, u, ns, h3⟩ := ih _ rfl (fine_or_head hf) hm
    exact ⟨a, s', h2, u, _, .or (by simp) h3⟩
  | @loop_more e mx s r ns c m c' m' hx _ h1 _ ih ih' =>
    rintro x ⟨mn, rfl⟩ hf hm
    rcases Nat.lt_or_ge r.length s.length with hl | hl
    · obtain ⟨a, s', h2, h3⟩ := first_of_ok h1 hl
      exact ⟨a, s', h2, first_rep hx h3⟩
    · obtain ⟨rfl, hn⟩ := null_of_ok h1 (by have := ok_length h1; omega)
      rcases Nat.eq_zero_or_pos m with h0 | h0
      · obtain ⟨a, s', h2, h3⟩ := ih' _ ⟨_, rfl⟩ (fine_again hf hx) (by omega)
        exact ⟨a, s', h2, first_rep_null hx hn h3⟩
      · obtain ⟨a, s', h2, h3⟩ := ih _ rfl (fine_body hf hx) h0
        exact ⟨a, s', h2, first_rep hx h3⟩
  | loop_stop hx _ _ _ ih =>
    rintro x ⟨mn, rfl⟩ hf hm
    obtain ⟨a, s', h2, h3⟩ := ih _ rfl (fine_body hf hx) hm
    exact ⟨a, s', h2, first_rep hx h3⟩

/-! ### If more was read than matched, what follows cannot go on -/

theorem meas_stuck (S : Setting G W N rk) {t s c m} (h : Meas G t s c m) :
    ∀ x, Fits t x → Fine G W x → ∀ r ns, Peg G x s (.ok r ns) → s.length < r.length + m →
      ∃ a r', r = a :: r' ∧ ¬ Follow G x (some a) := by
  induction h with
  | simple_ok h =>
    rintro x rfl _ r ns hp hm
    cases peg_det h hp
    have := ok_length h
    omega
  | simple_no h ho => rintro x rfl _ r ns hp; exact absurd (peg_det h hp) (ho _ _)
  | missing | seq_nil | alt_nil | loop_full =>
    intro x _ _ r ns hp hm
    have := ok_length hp
    omega
  | and _ ih => rintro x rfl hf r ns hp hm; exact ih _ rfl hf _ _ hp hm
  | or _ ih => rintro x rfl hf r ns hp hm; exact ih _ rfl hf _ _ hp hm
  | not _ ih => rintro x rfl hf; cases hf.plain
  | rep _ ih => rintro x rfl hf r ns hp hm; exact ih _ ⟨_, rfl⟩ hf _ _ hp hm
  | call hg _ ih =>
    rintro x rfl hf r ns hp hm
    cases hp with
    | call_ok hg' hp =>
      rw [hg] at hg'; cases hg'
      obtain ⟨a, r', h1, h2⟩ := ih _ rfl (fine_call S hf hg) _ _ hp hm
      exact ⟨a, r', h1, fun h => h2 (.body hg h)⟩
  | @seq_more e es s r1 ns1 c m c' m' _ h1 _ ih ih' =>
    rintro x rfl hf r ns hp hm
    cases hp with
    | and_ok h2 h3 =>
      cases peg_det h1 h2
      have hl1 := ok_length h1
      have hl3 := ok_length h3
      rcases Nat.lt_or_ge s.length (r.length + m) with hlt | hge
      · obtain ⟨a, r', h4, h5⟩ := ih _ rfl (fine_head hf) _ _ h1 (by omega)
        rcases Nat.lt_or_ge r.length r1.length with hl | hl
        · exfalso
          obtain ⟨b, s', h6, h7⟩ := first_of_ok h3 hl
          rw [h4] at h6; cases h6
          obtain ⟨y, hy⟩ := hf.live
          exact h5 (.next hy h7)
        · obtain ⟨rfl, hn⟩ := null_of_ok h3 (by omega)
          exact ⟨a, r', h4, fun h => h5 (.last h hn)⟩
      · obtain ⟨a, r', h4, h5⟩ := ih' _ rfl (fine_tail hf) _ _ h3 (by omega)
        exact ⟨a, r', h4, fun h => h5 (.rest h)⟩
  | seq_stop _ h ho ih =>
    rintro x rfl hf r ns hp
    cases hp with
    | and_ok h2 h3 => exact absurd (peg_det h h2) (ho _ _)
  | @alt_more e es s c m c' m' hme h1 h2 ih ih' =>
    rintro x rfl hf r ns hp hm
    cases hp with
    | or_ok h => cases peg_det h1 h
    | or_next _ h =>
      cases es with
      | nil => cases h
      | cons e' es =>
        have hl := ok_length h
        rcases Nat.lt_or_ge s.length (r.length + m') with hlt | hge
        · obtain ⟨a, r', h4, h5⟩ := ih' _ rfl (fine_or_tail hf) _ _ h hlt
          exact ⟨a, r', h4, fun h => h5 (.alternatives h)⟩
        · obtain ⟨a, s', h4, h5⟩ := meas_first S hme _ rfl (fine_or_head hf) (by omega)
          rcases Nat.lt_or_ge r.length s.length with hl' | hl'
          · exfalso
            obtain ⟨b, s'', h6, h7⟩ := first_of_ok h hl'
            rw [h4] at h6; cases h6
            obtain ⟨y, hy⟩ := hf.live
            exact ((S.ll1.choice _ _ _ _ hy).2 _ h5).1 h7
          · obtain ⟨rfl, hn⟩ := null_of_ok h (by omega)
            exact ⟨a, s', h4, fun hy => ((S.ll1.choice _ _ _ _ hy).2 _ h5).2 hn rfl⟩
  | alt_stop _ h ho ih =>
    rintro x rfl hf r ns hp hm
    cases hp with
    | or_ok h =>
      obtain ⟨a, r', h4, h5⟩ := ih _ rfl (fine_or_head hf) _ _ h hm
      exact ⟨a, r', h4, fun h => h5 (.alternative h)⟩
    | or_next h' _ => exact absurd (peg_det h h') ho
  | @loop_more e mx s r1 ns1 c m c' m' hx _ h1 _ ih ih' =>
    rintro x ⟨mn, rfl⟩ hf r ns hp hm
    rcases inv_rep_ok hp with ⟨h, _⟩ | ⟨_, _, _, h⟩ | ⟨_, r2, ns2, ns3, h2, h3⟩
    · exact absurd h hx
    · cases peg_det h1 h
    · cases peg_det h1 h2
      have hl1 := ok_length h1
      have hl3 := ok_length h3
      rcases Nat.lt_or_ge s.length (r.length + m) with hlt | hge
      · obtain ⟨a, r', h4, h5⟩ := ih _ rfl (fine_body hf hx) _ _ h1 (by omega)
        rcases Nat.lt_or_ge r.length r1.length with hl | hl
        · exfalso
          obtain ⟨b, s', h6, h7⟩ := first_of_ok h3 hl
          rw [h4] at h6; cases h6
          obtain ⟨y, hy⟩ := hf.live
          exact h5 (.again hy hx h7)
        · obtain ⟨rfl, hn⟩ := null_of_ok h3 (by omega)
          exact ⟨a, r', h4, fun h => h5 (.once h hx hn)⟩
      · obtain ⟨a, r', h4, h5⟩ := ih' _ ⟨_, rfl⟩ (fine_again hf hx) _ _ h3 (by omega)
        exact ⟨a, r', h4, fun h => h5 (.repeats h hx)⟩
  | @loop_stop e mx s o c m hx hme h ho ih =>
    rintro x ⟨mn, rfl⟩ hf r ns hp hm
    rcases inv_rep_ok hp with ⟨h', _⟩ | ⟨_, rfl, rfl, h'⟩ | ⟨_, r1, ns1, ns2, h2, h3⟩
    · exact absurd h' hx
    · obtain ⟨a, s', h4, h5⟩ := meas_first S hme _ rfl (fine_body hf hx) (by omega)
      exact ⟨a, s', h4, fun hy => (S.ll1.repetition _ _ _ hy hx).2 _ h5 rfl⟩
    · exact absurd (peg_det h h2) (ho _ _)

/-! ### The bound -/

/-- The bound: less than `2 ^ a` if nothing was read, otherwise less than `Z * 4 ^ a + K * (m - 1)`. -/
def Cheap (Z K a c m : Nat) : Prop := (m = 0 → c < 2 ^ a) ∧ (0 < m → c < Z * 4 ^ a + K * (m - 1))

theorem cheap_le {Z K a b c m : Nat} (h : Cheap Z K a c m) (hab : a ≤ b) : Cheap Z K b c m := by
  have h1 : 2 ^ a ≤ 2 ^ b := Nat.pow_le_pow_right (by omega) hab
  have h2 : Z * 4 ^ a ≤ Z * 4 ^ b := Nat.mul_le_mul_left _ (Nat.pow_le_pow_right (by omega) hab)
  exact ⟨fun h0 => Nat.lt_of_lt_of_le (h.1 h0) h1, fun h0 => Nat.lt_of_lt_of_le (h.2 h0) (by omega)⟩

theorem cheap_succ {Z K a b c m : Nat} (h : Cheap Z K a c m) (hZ : 0 < Z) (hab : a < b) : Cheap Z K b (c + 1) m := by
  refine cheap_le (a := a + 1) ⟨fun h0 => ?_, fun h0 => ?_⟩ hab
  · have h1 := h.1 h0
    have h2 : 2 ^ (a + 1) = 2 * 2 ^ a := by rw [Nat.pow_succ]; ac_rfl
    omega
  · have h1 := h.2 h0
    have h2 : Z * 4 ^ (a + 1) = 4 * (Z * 4 ^ a) := by rw [Nat.pow_succ]; ac_rfl
    have h3 : 0 < Z * 4 ^ a := Nat.mul_pos hZ (Nat.pow_pos (by omega))
    omega

/-- two tries at the same place, at most one of which reads -/
theorem cheap_both {Z K a b d c m c' m' : Nat} (h : Cheap Z K a c m) (h' : Cheap Z K b c' m') (hm : m = 0 ∨ m' = 0)
    (ha : a < d) (hb : b < d) (hz : 2 ^ d ≤ Z) : Cheap Z K d (c + c') (max m m') := by
  obtain ⟨d, rfl⟩ : ∃ e, d = e + 1 := ⟨d - 1, by omega⟩
  have g := cheap_le h (Nat.le_of_lt_succ ha)
  have g' := cheap_le h' (Nat.le_of_lt_succ hb)
  have h2 : Z * 4 ^ (d + 1) = 4 * (Z * 4 ^ d) := by rw [Nat.pow_succ]; ac_rfl
  have h3 : Z * 1 ≤ Z * 4 ^ d := Nat.mul_le_mul_left _ (Nat.pow_pos (by omega))
  have h4 : 2 ^ (d + 1) = 2 * 2 ^ d := by rw [Nat.pow_succ]; ac_rfl
  refine ⟨fun h0 => ?_, fun h0 => ?_⟩
  · have := g.1 (by omega)
    have := g'.1 (by omega)
    omega
  · rcases hm with rfl | rfl
    · have := g.1 rfl
      have := g'.2 (by omega)
      rw [Nat.zero_max]
      omega
    · have := g'.1 rfl
      have := g.2 (by omega)
      rw [Nat.max_zero]
      omega

/-- one after the other, the first one consumed `k` characters -/
theorem cheap_next {Z K a b d c m c' m' k : Nat} (h : Cheap Z K a c m) (h' : Cheap Z K b c' m') (hk : 0 < k) (hkm : k ≤ m)
    (hm : m' = 0 ∨ m = k) (ha : a < d) (hz : 2 ^ b ≤ Z) (hK : Z * 4 ^ b ≤ K) : Cheap Z K d (c + c') (max m (k + m')) := by
  refine cheap_le (a := a + 1) ⟨fun h0 => by omega, fun _ => ?_⟩ ha
  have h1 := h.2 (by omega)
  have h2 : Z * 4 ^ (a + 1) = 4 * (Z * 4 ^ a) := by rw [Nat.pow_succ]; ac_rfl
  have h3 : Z * 1 ≤ Z * 4 ^ a := Nat.mul_le_mul_left _ (Nat.pow_pos (by omega))
  rcases Nat.eq_zero_or_pos m' with rfl | h0
  · have := h'.1 rfl
    rw [show max m (k + 0) = m from by omega]
    omega
  · have h4 := h'.2 h0
    rcases hm with hm | rfl
    · omega
    · rw [show max m (m + m') = m + m' from by omega, show m + m' - 1 = (m - 1) + ((m' - 1) + 1) from by omega, Nat.mul_add,
        Nat.mul_add, Nat.mul_one]
      omega

theorem tsize_le {t x} (h : Fits t x) : tsize t ≤ esize x := by
  cases t with
  | one e => cases h; exact Nat.le_refl _
  | seq es => cases h; simp only [tsize, esize]; omega
  | alt es => cases h; simp only [tsize, esize]; omega
  | loop e mx => obtain ⟨mn, rfl⟩ := h; simp only [tsize, esize]; omega

theorem left_tail {e es n} (he : CanEmpty G e) (h : LeftCalls G (.and es) n) : LeftCalls G (.and (e :: es)) n := by
  cases h with
  | @and pre e' post n hp h =>
    refine .and (pre := e :: pre) ?_ h
    intro x hx
    rcases List.mem_cons.1 hx with rfl | hx
    · exact he
    · exact hp x hx

theorem meas_cost (S : Setting G W N rk) {t s c m} (h : Meas G t s c m) {Z K top : Nat} (htop : top = W * (N + 1) + W)
    (hZ : Z = 2 ^ top) (hK : K = Z * 4 ^ top) :
    ∀ x, Fits t x → Fine G W x → ∀ k, k ≤ N + 1 → (∀ n, LeftCalls G x n → rk n < k) → Cheap Z K (W * k + tsize t) c m := by
  have hZ0 : 0 < Z := by rw [hZ]; exact Nat.pow_pos (by omega)
  have high : ∀ {t x k}, Fits t x → Fine G W x → k ≤ N + 1 → W * k + tsize t ≤ top := by
    intro t x k h1 h2 h3
    have h4 := tsize_le h1
    have h5 := h2.size
    have h6 := Nat.mul_le_mul_left W h3
    omega
  have highZ : ∀ {a}, a ≤ top → 2 ^ a ≤ Z := fun h => hZ ▸ Nat.pow_le_pow_right (by omega) h
  have any : ∀ n, rk n < N + 1 := fun n => Nat.lt_succ_of_le (S.ranks n)
  have one : ∀ {a m}, 0 < a → Cheap Z K a 1 m := by
    intro a m ha
    have h1 : 2 ^ 1 ≤ 2 ^ a := Nat.pow_le_pow_right (by omega) ha
    have h2 : Z * 4 ^ 1 ≤ Z * 4 ^ a := Nat.mul_le_mul_left _ (Nat.pow_le_pow_right (by omega) ha)
    exact ⟨fun _ => by omega, fun _ => by omega⟩
  have nought : ∀ {a}, Cheap Z K a 0 0 := fun {a} => ⟨fun _ => Nat.pow_pos (by omega), fun h => by omega⟩
  induction h with
  | simple_ok | simple_no | missing => rintro x rfl hf k hk hr; exact one (by simp [tsize, esize])
  | seq_nil | alt_nil | loop_full => intro x _ _ k _ _; exact nought
  | and _ ih =>
    rintro x rfl hf k hk hr
    exact cheap_succ (ih _ rfl hf k hk hr) hZ0 (by simp only [tsize, esize]; omega)
  | or _ ih =>
    rintro x rfl hf k hk hr
    exact cheap_succ (ih _ rfl hf k hk hr) hZ0 (by simp only [tsize, esize]; omega)
  | not _ ih => rintro x rfl hf; cases hf.plain
  | rep _ ih =>
    rintro x rfl hf k hk hr
    exact cheap_succ (ih _ ⟨_, rfl⟩ hf k hk hr) hZ0 (by simp only [tsize, esize]; omega)
  | @call n e s c m hg _ ih =>
    rintro x rfl hf k hk hr
    have h1 := hr n (.here n)
    have h2 := ih _ rfl (fine_call S hf hg) (rk n) (by omega) fun p hp => S.rank n e p hg hp
    refine cheap_succ h2 hZ0 ?_
    have h3 := S.size n e hg
    have h4 := Nat.mul_le_mul_left W (show rk n + 1 ≤ k from h1)
    rw [Nat.mul_add] at h4
    simp only [tsize, esize]
    omega
  | @seq_more e es s r ns c m c' m' hme h1 hme' ih ih' =>
    rintro x rfl hf k hk hr
    have hh := ih _ rfl (fine_head hf) k hk fun n hn => hr n (.and (pre := []) (by simp) hn)
    have hl := ok_length h1
    have hone : m' = 0 ∨ m = s.length - r.length := by
      rcases Nat.eq_zero_or_pos m' with h0 | h0
      · exact .inl h0
      · right
        have h2 := meas_consumed hme _ rfl _ _ h1
        by_contra hne
        obtain ⟨a, r', h3, h4⟩ := meas_stuck S hme _ rfl (fine_head hf) _ _ h1 (by omega)
        obtain ⟨b, s', h5, h6⟩ := meas_first S hme' _ rfl (fine_tail hf) h0
        rw [h3] at h5; cases h5
        obtain ⟨y, hy⟩ := hf.live
        exact h4 (.next hy h6)
    have hsz : tsize (.seq (e :: es)) = esize e + esizes es + 1 := rfl
    rcases Nat.lt_or_ge r.length s.length with hlt | hge
    · have h2 := ih' _ rfl (fine_tail hf) (N + 1) (Nat.le_refl _) fun n _ => any n
      have h3 := high (t := .seq es) rfl (fine_tail hf) (Nat.le_refl _)
      refine cheap_next hh (cheap_le h2 h3) (by omega) ?_ hone (by rw [hsz]; simp only [tsize]; omega) (highZ (Nat.le_refl _)) (by omega)
      have := meas_consumed hme _ rfl _ _ h1
      omega
    · have he := (peg_length h1 _ _ rfl).2 (by omega)
      have h2 := ih' _ rfl (fine_tail hf) k hk fun n hn => hr n (left_tail he hn)
      rw [show s.length - r.length + m' = m' from by omega]
      refine cheap_both hh h2 (by omega) (by rw [hsz]; simp only [tsize]; omega) (by rw [hsz]; simp only [tsize]; omega) (highZ (high rfl hf hk))
  | seq_stop _ _ _ ih =>
    rintro x rfl hf k hk hr
    exact cheap_le (ih _ rfl (fine_head hf) k hk fun n hn => hr n (.and (pre := []) (by simp) hn)) (by simp only [tsize, esizes]; omega)
  | @alt_more e es s c m c' m' hme h1 hme' ih ih' =>
    rintro x rfl hf k hk hr
    have hh := ih _ rfl (fine_or_head hf) k hk fun n hn => hr n (.or (by simp) hn)
    cases es with
    | nil =>
      obtain ⟨rfl, rfl⟩ := alt_empty hme'
      rw [Nat.max_zero]
      exact cheap_le hh (by simp only [tsize, esizes]; omega)
    | cons e' es =>
      have h2 := ih' _ rfl (fine_or_tail hf) k hk fun n hn => by
        cases hn with
        | or hm hn => exact hr n (.or (List.mem_cons_of_mem _ hm) hn)
      have hone : m = 0 ∨ m' = 0 := by
        by_contra hne
        obtain ⟨a, s', h3, h4⟩ := meas_first S hme _ rfl (fine_or_head hf) (by omega)
        obtain ⟨b, s'', h5, h6⟩ := meas_first S hme' _ rfl (fine_or_tail hf) (by omega)
        rw [h3] at h5; cases h5
        obtain ⟨y, hy⟩ := hf.live
        exact ((S.ll1.choice _ _ _ _ hy).2 _ h4).1 h6
      exact cheap_both hh h2 hone (by simp only [tsize, esizes]; omega) (by simp only [tsize, esizes]; omega) (highZ (high rfl hf hk))
  | alt_stop _ _ _ ih =>
    rintro x rfl hf k hk hr
    exact cheap_le (ih _ rfl (fine_or_head hf) k hk fun n hn => hr n (.or (by simp) hn)) (by simp only [tsize, esizes]; omega)
  | @loop_more e mx s r ns c m c' m' hx hme h1 hme' ih ih' =>
    rintro x ⟨mn, rfl⟩ hf k hk hr
    have hh := ih _ rfl (fine_body hf hx) k hk fun n hn => hr n (.rep hn)
    have hl := ok_length h1
    have hone : m' = 0 ∨ m = s.length - r.length := by
      rcases Nat.eq_zero_or_pos m' with h0 | h0
      · exact .inl h0
      · right
        have h2 := meas_consumed hme _ rfl _ _ h1
        by_contra hne
        obtain ⟨a, r', h3, h4⟩ := meas_stuck S hme _ rfl (fine_body hf hx) _ _ h1 (by omega)
        obtain ⟨b, s', h5, h6⟩ := meas_first S hme' _ ⟨mn - 1, rfl⟩ (fine_again hf hx) h0
        rw [h3] at h5; cases h5
        obtain ⟨y, hy⟩ := hf.live
        exact h4 (.again hy hx h6)
    rcases Nat.lt_or_ge r.length s.length with hlt | hge
    · have h2 := ih' _ ⟨mn - 1, rfl⟩ (fine_again hf hx) (N + 1) (Nat.le_refl _) fun n _ => any n
      have h3 := high (t := .loop e (mx.map (· - 1))) ⟨mn - 1, rfl⟩ (fine_again hf hx) (Nat.le_refl _)
      refine cheap_next hh (cheap_le h2 h3) (by omega) ?_ hone (by simp only [tsize]; omega) (highZ (Nat.le_refl _)) (by omega)
      have := meas_consumed hme _ rfl _ _ h1
      omega
    · have he := (peg_length h1 _ _ rfl).2 (by omega)
      have h2 := ih' _ ⟨mn - 1, rfl⟩ (fine_again hf hx) k hk fun n hn => by
        cases hn with
        | rep hn => exact hr n (.rep hn)
      rw [show s.length - r.length + m' = m' from by omega]
      refine cheap_both hh h2 (by omega) (by simp only [tsize]; omega) ?_ (highZ (high ⟨mn, rfl⟩ hf hk))
      cases mx with
      | none => exact absurd he (hf.repOK e mn (.refl _))
      | some j =>
        have : j ≠ 0 := fun h => hx (by rw [h])
        simp only [tsize, Option.map_some, Option.getD_some]
        omega
  | loop_stop hx _ _ _ ih =>
    rintro x ⟨mn, rfl⟩ hf k hk hr
    exact cheap_le (ih _ rfl (fine_body hf hx) k hk fun n hn => hr n (.rep hn)) (by simp only [tsize]; omega)

/-! ### Ranks of rules -/

theorem chain_sources {α : Type} {r : α → α → Prop} (l : List α) (hl : ∀ a b, r a b → a ∈ l) :
    ∀ (p : List α) (a : α), List.IsChain r (a :: p) → ∀ x ∈ (a :: p).dropLast, x ∈ l
  | [], a, _, x, hx => by simp at hx
  | b :: p, a, h, x, hx => by
    rw [List.isChain_cons_cons] at h
    rw [List.dropLast_cons_of_ne_nil (by simp)] at hx
    rcases List.mem_cons.1 hx with rfl | hx
    · exact hl _ _ h.1
    · exact chain_sources l hl p b h.2 x hx

theorem ranks_of_acyclic {α : Type} {r : α → α → Prop} (l : List α) (hl : ∀ a b, r a b → a ∈ l)
    (hac : ∀ a, ¬ Relation.TransGen r a a) : ∃ rk : α → Nat, (∀ a b, r a b → rk b < rk a) ∧ ∀ a, rk a ≤ l.length := by
  classical
  let P : α → Nat → Prop := fun a k => ∃ p : List α, p.length = k ∧ List.IsChain r (a :: p)
  have hP : ∀ a k, P a k → k ≤ l.length := by
    rintro a k ⟨p, rfl, hp⟩
    have h1 : List.IsChain (Relation.TransGen r) (a :: p) := hp.imp fun _ _ h => .single h
    have h2 : (a :: p).Pairwise (Relation.TransGen r) := List.isChain_iff_pairwise.1 h1
    have h3 : (a :: p).Nodup := h2.imp (S := (· ≠ ·)) fun {x y} h hxy => hac x (by subst hxy; exact h)
    have h4 := (List.subperm_of_subset (h3.sublist (List.dropLast_sublist _)) (fun x hx => chain_sources l hl p a hp x hx)).length_le
    simpa using h4
  refine ⟨fun a => Nat.findGreatest (P a) l.length, fun a b h => ?_, fun a => Nat.findGreatest_le _⟩
  obtain ⟨p, hp, hc⟩ := Nat.findGreatest_spec (P := P b) (Nat.zero_le l.length) ⟨[], rfl, .singleton b⟩
  have : P a (Nat.findGreatest (P b) l.length + 1) := ⟨b :: p, by simp [hp], List.isChain_cons_cons.2 ⟨h, hc⟩⟩
  exact Nat.le_findGreatest (hP _ _ this) this

/-! ### A checker for useless parts -/

mutual
/-- a text that the expression derives, found in so many steps -/
def sample (R : SetOfRules) : Nat → Expr → Option (Str × List Node)
  | 0, _ => none
  | _ + 1, .simple (.literal l) => some (l, [.val l])
  | _ + 1, .simple (.mtch (c :: _) _) => some ([c], [.val [c]])
  | _ + 1, .simple (.mtch [] ((a, b) :: _)) => if a.toNat ≤ b.toNat then some ([a], [.val [a]]) else none
  | _ + 1, .simple .dot => some (['a'], [.val ['a']])
  | f + 1, .and es => sampleSeq R f es
  | f + 1, .or es => sampleAny R f es
  | _ + 1, .rep _ 0 _ => some ([], [])
  | f + 1, .rep e (n + 1) mx => if mx = some 0 then some ([], []) else
      match sample R f e, sample R f (.rep e n (mx.map (· - 1))) with
      | some (u, ns), some (v, ms) => some (u ++ v, ns ++ ms)
      | _, _ => none
  | f + 1, .ruleName n => match denotes R n with
      | some e => (sample R f e).map fun (u, ns) => (u, [.rule n ns])
      | none => none
  | _ + 1, _ => none
def sampleSeq (R : SetOfRules) : Nat → List Expr → Option (Str × List Node)
  | 0, _ => none
  | _ + 1, [] => some ([], [])
  | f + 1, e :: es => match sample R f e, sampleSeq R f es with
      | some (u, ns), some (v, ms) => some (u ++ v, ns ++ ms)
      | _, _ => none
def sampleAny (R : SetOfRules) : Nat → List Expr → Option (Str × List Node)
  | 0, _ => none
  | _ + 1, [] => none
  | f + 1, e :: es => (sample R f e).orElse fun _ => sampleAny R f es
end

theorem sample_gen (R : SetOfRules) : ∀ f,
    (∀ e u ns, sample R f e = some (u, ns) → Gen (denotes R) e u ns) ∧
    (∀ es u ns, sampleSeq R f es = some (u, ns) → Gen (denotes R) (.and es) u ns) ∧
    (∀ es u ns, sampleAny R f es = some (u, ns) → Gen (denotes R) (.or es) u ns) := by
  intro f
  induction f with
  | zero => refine ⟨?_, ?_, ?_⟩ <;> intro _ _ _ h <;> simp [sample, sampleSeq, sampleAny] at h
  | succ f ih =>
    obtain ⟨ih1, ih2, ih3⟩ := ih
    refine ⟨?_, ?_, ?_⟩
    · intro e u ns h
      unfold sample at h
      split at h
      · simp at *
      · cases h; exact .lit _
      · cases h; exact .cls (.inl (by simp))
      · split at h
        · cases h; exact .cls (.inr ⟨_, List.mem_cons_self, Nat.le_refl _, by assumption⟩)
        · cases h
      · cases h; exact .dot _
      · rename_i hq
        obtain rfl := Nat.succ.inj hq
        exact ih2 _ _ _ h
      · rename_i hq
        obtain rfl := Nat.succ.inj hq
        exact ih3 _ _ _ h
      · cases h; exact .none _ _
      · rename_i hq
        obtain rfl := Nat.succ.inj hq
        split at h
        · cases h; subst_vars; exact .full _ _
        · split at h
          · cases h
            exact .more (by assumption) (ih1 _ _ _ (by assumption)) (ih1 _ _ _ (by assumption))
          · cases h
      · rename_i hq
        obtain rfl := Nat.succ.inj hq
        split at h
        · obtain ⟨⟨v, ms⟩, h2, h3⟩ := Option.map_eq_some_iff.1 h
          cases h3
          exact .call (by assumption) (ih1 _ _ _ h2)
        · cases h
      · cases h
    · intro es u ns h
      cases es with
      | nil => cases h; exact .nil
      | cons e es =>
        simp only [sampleSeq] at h
        split at h
        · cases h; exact .cons (ih1 _ _ _ (by assumption)) (ih2 _ _ _ (by assumption))
        · cases h
    · intro es u ns h
      cases es with
      | nil => cases h
      | cons e es =>
        simp only [sampleAny] at h
        cases h1 : sample R f e with
        | none =>
          rw [h1] at h
          cases ih3 es u ns h with
          | or hm hg => exact .or (List.mem_cons_of_mem _ hm) hg
        | some x =>
          rw [h1] at h
          cases h
          exact .or (by simp) (ih1 _ _ _ h1)

mutual
/-- the parts of an expression -/
def parts : Expr → List Expr
  | .simple a => [.simple a]
  | .and es => .and es :: partsL es
  | .or es => .or es :: partsL es
  | .not e => .not e :: parts e
  | .rep e mn mx => .rep e mn mx :: parts e
  | .ruleName n => [.ruleName n]
def partsL : List Expr → List Expr
  | [] => []
  | e :: es => parts e ++ partsL es
end

theorem parts_self (e : Expr) : e ∈ parts e := by cases e <;> simp [parts]

theorem partsL_mem : ∀ {es : List Expr} {e x}, e ∈ es → x ∈ parts e → x ∈ partsL es
  | e0 :: es, e, x, hm, hx => by
    rw [partsL, List.mem_append]
    rcases List.mem_cons.1 hm with rfl | hm
    · exact .inl hx
    · exact .inr (partsL_mem hm hx)

theorem parts_of_sub {x e} (h : Sub x e) : x ∈ parts e := by
  induction h with
  | refl => exact parts_self _
  | and hm _ ih => rw [parts]; exact List.mem_cons_of_mem _ (partsL_mem hm ih)
  | or hm _ ih => rw [parts]; exact List.mem_cons_of_mem _ (partsL_mem hm ih)
  | not _ ih => rw [parts]; exact List.mem_cons_of_mem _ ih
  | rep _ ih => rw [parts]; exact List.mem_cons_of_mem _ ih

theorem mem_of_lookup {n : Str} {e : Expr} : ∀ {l : List (Str × Expr)}, l.lookup n = some e → (n, e) ∈ l
  | (m, x) :: l, h => by
    rw [List.lookup_cons] at h
    split at h
    · rename_i hb
      cases h
      rw [eq_of_beq hb]
      exact List.mem_cons_self
    · exact List.mem_cons_of_mem _ (mem_of_lookup h)

theorem productive_of_check {R : SetOfRules} (f : Nat)
    (h : R.entries.all (fun ne => (parts (effective ne.2)).all fun x => (sample R f x).isSome) = true) : Productive (denotes R) := by
  intro n e hg x hx
  obtain ⟨e', h1, rfl⟩ := Option.map_eq_some_iff.1 hg
  have h2 := List.all_eq_true.1 h (n, e') (mem_of_lookup h1)
  have h3 := List.all_eq_true.1 h2 x (parts_of_sub hx)
  obtain ⟨⟨u, ns⟩, h4⟩ := Option.isSome_iff_exists.1 h3
  exact ⟨u, ns, (sample_gen R f).1 _ _ _ h4⟩

end
end DP
