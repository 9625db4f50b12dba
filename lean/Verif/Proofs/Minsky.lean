/-
Machines with two counters do what programs of loops do. (For C78.)

The registers are kept in the first counter, as the product of the powers of the primes. To count up a register is to multiply by its
prime, which is done by moving the first counter to the second and back; to count it down is to divide.
-/
import Verif.Proofs.Loops
import Verif.Spec.Counter
import Mathlib.Data.Nat.Prime.Nth
import Mathlib.Data.Nat.PrimeFin
import Mathlib.Algebra.BigOperators.Associated
import Mathlib.Computability.Halting
import Mathlib.Computability.Reduce

namespace DP.Reg
open Spec
open scoped BigOperators

/-! ### Runs of a machine -/

inductive Steps (P : List Instr) : Nat → Moment → Moment → Prop
  | refl {m} : Steps P 0 m m
  | step {k m m' m''} : Ticks P m m' → Steps P k m' m'' → Steps P (k + 1) m m''

def HaltsIn (P : List Instr) (n : Nat) (m : Moment) : Prop := ∃ m', Steps P n m m' ∧ Halted P m'

def Reach (P : List Instr) (m m' : Moment) : Prop := ∃ k, Steps P k m m'

theorem ticks_det {P m m1 m2} (h1 : Ticks P m m1) (h2 : Ticks P m m2) : m1 = m2 := by
  cases h1 <;> rename_i h <;> cases h2 <;> rename_i h' <;> rw [h] at h' <;> cases h' <;> rfl

theorem ticks_not_halted {P m m'} (h : Ticks P m m') : ¬ Halted P m := by
  intro hh
  cases h <;> rename_i h <;> rw [List.getElem?_eq_none hh] at h <;> cases h

theorem halts_iff_haltsIn {P m} : HaltsFrom P m ↔ ∃ n, HaltsIn P n m := by
  constructor
  · intro h
    induction h with
    | now h => exact ⟨0, _, .refl, h⟩
    | later h _ ih =>
      obtain ⟨n, m', h1, h2⟩ := ih
      exact ⟨n + 1, m', .step h h1, h2⟩
  · rintro ⟨n, m', h1, h2⟩
    induction h1 with
    | refl => exact .now h2
    | step h _ ih => exact .later h (ih h2)

theorem steps_halts {P k m m'} (h : Steps P k m m') : ∀ n, HaltsIn P n m → k ≤ n ∧ HaltsIn P (n - k) m' := by
  induction h with
  | refl => intro n h; exact ⟨Nat.zero_le _, h⟩
  | @step k m m1 m2 h _ ih =>
    rintro n ⟨m', h1, h2⟩
    cases h1 with
    | refl => exact absurd h2 (ticks_not_halted h)
    | @step n _ m1' _ h3 h4 =>
      cases ticks_det h h3
      obtain ⟨h5, h6⟩ := ih n ⟨m', h4, h2⟩
      exact ⟨by omega, by rw [Nat.add_sub_add_right]; exact h6⟩

theorem steps_trans {P k l m m' m''} (h : Steps P k m m') (h' : Steps P l m' m'') : Steps P (k + l) m m'' := by
  induction h with
  | refl => rw [Nat.zero_add]; exact h'
  | step h _ ih => rw [Nat.add_right_comm]; exact .step h (ih h')

theorem Reach.refl {P m} : Reach P m m := ⟨0, .refl⟩
theorem Reach.trans {P m m' m''} : Reach P m m' → Reach P m' m'' → Reach P m m'' := fun ⟨k, h⟩ ⟨l, h'⟩ => ⟨k + l, steps_trans h h'⟩
theorem Reach.step {P m m' m''} : Ticks P m m' → Reach P m' m'' → Reach P m m'' := fun h ⟨k, h'⟩ => ⟨k + 1, .step h h'⟩
theorem Reach.one {P m m'} (h : Ticks P m m') : Reach P m m' := ⟨1, .step h .refl⟩

theorem reach_halts {P m m'} (h : Reach P m m') {n} (hn : HaltsIn P n m) : ∃ n' ≤ n, HaltsIn P n' m' := by
  obtain ⟨k, h⟩ := h
  exact ⟨n - k, Nat.sub_le _ _, (steps_halts h n hn).2⟩

/-! ### Pieces of code -/

/-- `n` instructions that count up `A`, from `s` on, and the last one goes to `e` -/
theorem reach_incsA {P : List Instr} {s n e : Nat} (h : ∀ i < n, P[s + i]? = some (.inc false (if i + 1 = n then e else s + i + 1))) :
    ∀ (d i a b : Nat), i + d + 1 = n → Reach P ⟨s + i, a, b⟩ ⟨e, a + (d + 1), b⟩ := by
  intro d
  induction d with
  | zero =>
    intro i a b hi
    have := h i (by omega)
    rw [if_pos (by omega)] at this
    exact .one (.incA this)
  | succ d ih =>
    intro i a b hi
    have h1 := h i (by omega)
    rw [if_neg (by omega)] at h1
    have h2 := ih (i + 1) (a + 1) b (by omega)
    rw [show a + 1 + (d + 1) = a + (d + 1 + 1) from by omega] at h2
    exact .step (.incA h1) h2

theorem reach_incsB {P : List Instr} {s n e : Nat} (h : ∀ i < n, P[s + i]? = some (.inc true (if i + 1 = n then e else s + i + 1))) :
    ∀ (d i a b : Nat), i + d + 1 = n → Reach P ⟨s + i, a, b⟩ ⟨e, a, b + (d + 1)⟩ := by
  intro d
  induction d with
  | zero =>
    intro i a b hi
    have := h i (by omega)
    rw [if_pos (by omega)] at this
    exact .one (.incB this)
  | succ d ih =>
    intro i a b hi
    have h1 := h i (by omega)
    rw [if_neg (by omega)] at h1
    have h2 := ih (i + 1) a (b + 1) (by omega)
    rw [show b + 1 + (d + 1) = b + (d + 1 + 1) from by omega] at h2
    exact .step (.incB h1) h2

/-- empty `A`, adding `q` to `B` each time -/
theorem reach_drainA {P : List Instr} {s t e q : Nat} (h : P[s]? = some (.dec false t e)) (hr : ∀ a b, Reach P ⟨t, a, b⟩ ⟨s, a, b + q⟩) :
    ∀ a b, Reach P ⟨s, a, b⟩ ⟨e, 0, b + q * a⟩ := by
  intro a
  induction a with
  | zero => intro b; exact .one (.zeroA h)
  | succ a ih =>
    intro b
    have h2 := (hr a b).trans (ih (b + q))
    rw [show b + q + q * a = b + q * (a + 1) from by rw [Nat.mul_succ]; omega] at h2
    exact .step (.decA h) h2

theorem reach_drainB {P : List Instr} {s t e q : Nat} (h : P[s]? = some (.dec true t e)) (hr : ∀ a b, Reach P ⟨t, a, b⟩ ⟨s, a + q, b⟩) :
    ∀ b a, Reach P ⟨s, a, b⟩ ⟨e, a + q * b, 0⟩ := by
  intro b
  induction b with
  | zero => intro a; exact .one (.zeroB h)
  | succ b ih =>
    intro a
    have h2 := (hr a b).trans (ih (a + q))
    rw [show a + q + q * b = a + q * (b + 1) from by rw [Nat.mul_succ]; omega] at h2
    exact .step (.decB h) h2

/-! ### The compiler -/

/-- the prime of a register -/
noncomputable def pr (r : Nat) : Nat := Nat.nth Nat.Prime r

theorem pr_prime (r : Nat) : (pr r).Prime := Nat.nth_mem_of_infinite Nat.infinite_setOfPred_prime r
theorem pr_pos (r : Nat) : 2 ≤ pr r := (pr_prime r).two_le

noncomputable def len : Prog → Nat
  | .skip => 0
  | .inc r => pr r + 3
  | .seq p q => len p + len q
  | .loop r p => 2 * pr r + 6 + len p

/-- the instruction number `i` of a program that begins at `o` -/
noncomputable def code : Prog → Nat → Nat → Instr
  | .skip, _, _ => .inc false 0
  | .inc r, o, i =>
    if i = 0 then .dec false (o + 1) (o + pr r + 1)
    else if i ≤ pr r then .inc true (if i = pr r then o else o + i + 1)
    else if i = pr r + 1 then .dec true (o + pr r + 2) (o + pr r + 3)
    else .inc false (o + pr r + 1)
  | .seq p q, o, i => if i < len p then code p o i else code q (o + len p) (i - len p)
  | .loop r p, o, i =>
    if i < pr r then .dec false (o + i + 1) (if i = 0 then o + pr r + 1 else o + 2 * pr r + 4 - i)
    else if i = pr r then .inc true o
    else if i = pr r + 1 then .dec true (o + pr r + 2) (o + 2 * pr r + 4)
    else if i = pr r + 2 then .inc false (o + pr r + 1)
    else if i = pr r + 3 then .dec true (o + pr r + 4) (o + 2 * pr r + 6 + len p)
    else if i ≤ 2 * pr r + 3 then .inc false (if i = 2 * pr r + 3 then o + pr r + 3 else o + i + 1)
    else if i < 2 * pr r + 4 + len p then code p (o + 2 * pr r + 4) (i - (2 * pr r + 4))
    else if i = 2 * pr r + 4 + len p then .inc true (o + i + 1)
    else .dec true o o

/-- the program `p` is at `o` -/
def Fits (P : List Instr) (o : Nat) (p : Prog) : Prop := ∀ i < len p, P[o + i]? = some (code p o i)

theorem fits_left {P o p q} (h : Fits P o (.seq p q)) : Fits P o p := by
  intro i hi
  have := h i (by simp only [len]; omega)
  rwa [code, if_pos hi] at this

theorem fits_right {P o p q} (h : Fits P o (.seq p q)) : Fits P (o + len p) q := by
  intro i hi
  have := h (len p + i) (by simp only [len]; omega)
  rw [code, if_neg (by omega), Nat.add_sub_cancel_left] at this
  rwa [Nat.add_assoc]

theorem fits_body {P o r p} (h : Fits P o (.loop r p)) : Fits P (o + 2 * pr r + 4) p := by
  intro i hi
  have := h (2 * pr r + 4 + i) (by simp only [len]; omega)
  have h2 := pr_pos r
  rw [code, if_neg (by omega), if_neg (by omega), if_neg (by omega), if_neg (by omega), if_neg (by omega), if_neg (by omega), if_pos (by omega),
    Nat.add_sub_cancel_left] at this
  rw [← this]
  congr 1
  omega

/-- counting up a register multiplies -/
theorem reach_mul {P o r} (h : Fits P o (.inc r)) (a : Nat) : Reach P ⟨o, a, 0⟩ ⟨o + (pr r + 3), pr r * a, 0⟩ := by
  have hq := pr_pos r
  have h0 := h 0 (by simp only [len]; omega)
  rw [code, if_pos rfl] at h0
  have hu := h (pr r + 1) (by simp only [len]; omega)
  rw [code, if_neg (by omega), if_neg (by omega), if_pos rfl] at hu
  have hu' := h (pr r + 2) (by simp only [len]; omega)
  rw [code, if_neg (by omega), if_neg (by omega), if_neg (by omega)] at hu'
  have hi : ∀ i < pr r, P[o + 1 + i]? = some (.inc true (if i + 1 = pr r then o else o + 1 + i + 1)) := by
    intro i hi
    have := h (1 + i) (by simp only [len]; omega)
    rw [code, if_neg (by omega), if_pos (by omega)] at this
    rw [Nat.add_assoc o 1 i, this, Nat.add_comm 1 i]
  have d := reach_drainA (q := pr r) h0 (fun a b => by
    have := reach_incsB hi (pr r - 1) 0 a b (by omega)
    rwa [Nat.sub_add_cancel (by omega)] at this) a 0
  have u := reach_drainB (q := 1) (s := o + pr r + 1) hu (fun a b => .one (.incA hu')) (pr r * a) 0
  rw [Nat.zero_add, Nat.one_mul] at u
  rw [Nat.zero_add] at d
  exact d.trans u

section
variable {P : List Instr} {o r : Nat} {p : Prog} (h : Fits P o (.loop r p))
include h

theorem loop_down {i : Nat} (hi : i < pr r) : P[o + i]? = some (.dec false (o + i + 1) (if i = 0 then o + pr r + 1 else o + 2 * pr r + 4 - i)) := by
  have := h i (by simp only [len]; omega)
  rwa [code, if_pos hi] at this

theorem reach_down : ∀ (d i a b : Nat), i + d ≤ pr r → Reach P ⟨o + i, a + d, b⟩ ⟨o + i + d, a, b⟩ := by
  intro d
  induction d with
  | zero => intro i a b _; exact .refl
  | succ d ih =>
    intro i a b hi
    have h1 := loop_down h (i := i) (by omega)
    have h2 := ih (i + 1) a b (by omega)
    rw [show o + (i + 1) + d = o + i + (d + 1) from by omega] at h2
    exact .step (.decA h1) h2

/-- what is left of the first counter, and how often the prime was taken away -/
theorem reach_divide : ∀ (x y b : Nat), Reach P ⟨o, pr r * x + y, b⟩ ⟨o, y, b + x⟩ := by
  intro x
  induction x with
  | zero => intro y b; rw [Nat.mul_zero, Nat.zero_add]; exact .refl
  | succ x ih =>
    intro y b
    have hq := pr_pos r
    have h1 := reach_down h (pr r) 0 (pr r * x + y) b (by omega)
    have h2 := h (pr r) (by simp only [len]; omega)
    rw [code, if_neg (by omega), if_pos rfl] at h2
    have h3 := ih y (b + 1)
    rw [show b + 1 + x = b + (x + 1) from by omega] at h3
    rw [show pr r * (x + 1) + y = pr r * x + y + pr r from by rw [Nat.mul_succ]; omega]
    exact h1.trans (.step (.incB h2) h3)

theorem reach_div_ok (x : Nat) : ∃ k, Steps P (k + 1) ⟨o, pr r * x, 0⟩ ⟨o + 2 * pr r + 4, x, 0⟩ := by
  have hq := pr_pos r
  have h1 := reach_divide h x 0 0
  have h2 := loop_down h (i := 0) (by omega)
  rw [if_pos rfl] at h2
  have hu := h (pr r + 1) (by simp only [len]; omega)
  rw [code, if_neg (by omega), if_neg (by omega), if_pos rfl] at hu
  have hu' := h (pr r + 2) (by simp only [len]; omega)
  rw [code, if_neg (by omega), if_neg (by omega), if_neg (by omega), if_pos rfl] at hu'
  have u := reach_drainB (q := 1) (s := o + pr r + 1) hu (fun a b => .one (.incA hu')) x 0
  rw [Nat.zero_add, Nat.one_mul] at u
  rw [Nat.zero_add] at h1
  obtain ⟨k1, h1⟩ := h1
  obtain ⟨k2, u⟩ := u
  have h3 := steps_trans h1 (Steps.step (Ticks.zeroA h2) u)
  exact ⟨k1 + k2, h3⟩

theorem reach_div_no (x y : Nat) (hy : y < pr r) (h0 : y ≠ 0) : Reach P ⟨o, pr r * x + y, 0⟩ ⟨o + (2 * pr r + 6 + len p), pr r * x + y, 0⟩ := by
  have hq := pr_pos r
  have h1 := reach_divide h x y 0
  have h2 := reach_down h y 0 0 x (by omega)
  have h3 := loop_down h (i := y) hy
  rw [if_neg h0] at h3
  have hu := h (pr r + 3) (by simp only [len]; omega)
  rw [code, if_neg (by omega), if_neg (by omega), if_neg (by omega), if_neg (by omega), if_pos rfl] at hu
  have hi : ∀ i < pr r, P[o + pr r + 4 + i]? = some (.inc false (if i + 1 = pr r then o + pr r + 3 else o + pr r + 4 + i + 1)) := by
    intro i hi
    have := h (pr r + 4 + i) (by simp only [len]; omega)
    rw [code, if_neg (by omega), if_neg (by omega), if_neg (by omega), if_neg (by omega), if_neg (by omega), if_pos (by omega)] at this
    rw [show o + pr r + 4 + i = o + (pr r + 4 + i) from by omega, this]
    by_cases he : i + 1 = pr r
    · rw [if_pos he, if_pos (by omega)]
    · rw [if_neg he, if_neg (by omega)]
  have h4 := reach_incsA hi (y - 1) (pr r - y) 0 x (by omega)
  have h5 := reach_drainB (q := pr r) (s := o + pr r + 3) hu (fun a b => by
    have := reach_incsA hi (pr r - 1) 0 a b (by omega)
    rwa [Nat.sub_add_cancel (by omega)] at this) x y
  rw [Nat.zero_add] at h1 h2
  rw [Nat.add_zero] at h2
  rw [show o + pr r + 4 + (pr r - y) = o + 2 * pr r + 4 - y from by omega, show 0 + (y - 1 + 1) = y from by omega] at h4
  rw [Nat.add_comm y, show o + 2 * pr r + 6 + len p = o + (2 * pr r + 6 + len p) from by omega] at h5
  exact h1.trans (h2.trans (.step (.zeroA h3) (h4.trans h5)))

theorem reach_back (a : Nat) : Reach P ⟨o + 2 * pr r + 4 + len p, a, 0⟩ ⟨o, a, 0⟩ := by
  have hq := pr_pos r
  have h1 := h (2 * pr r + 4 + len p) (by simp only [len]; omega)
  rw [code, if_neg (by omega), if_neg (by omega), if_neg (by omega), if_neg (by omega), if_neg (by omega), if_neg (by omega), if_neg (by omega), if_pos rfl] at h1
  have h2 := h (2 * pr r + 4 + len p + 1) (by simp only [len]; omega)
  rw [code, if_neg (by omega), if_neg (by omega), if_neg (by omega), if_neg (by omega), if_neg (by omega), if_neg (by omega), if_neg (by omega), if_neg (by omega)] at h2
  rw [show o + 2 * pr r + 4 + len p = o + (2 * pr r + 4 + len p) from by omega]
  exact .step (.incB h1) (.one (.decB h2))

end

/-! ### The registers in one number -/

/-- the registers below `k` as a product of powers of primes -/
noncomputable def packed (k : Nat) (σ : Regs) : Nat := ∏ i ∈ Finset.range k, pr i ^ σ i

theorem packed_set {k r : Nat} (hr : r < k) (σ : Regs) : packed k (σ.set r (σ r + 1)) = pr r * packed k σ := by
  unfold packed
  rw [← Finset.mul_prod_erase _ _ (Finset.mem_range.2 hr), ← Finset.mul_prod_erase _ _ (Finset.mem_range.2 hr), set_same, Nat.pow_succ,
    Nat.mul_comm (pr r ^ σ r), Nat.mul_assoc]
  congr 2
  refine Finset.prod_congr rfl fun i hi => ?_
  rw [set_other _ _ (Finset.mem_erase.1 hi).1]

theorem packed_more {k r x : Nat} (hr : r < k) {σ : Regs} (h : σ r = x + 1) : packed k σ = pr r * packed k (σ.set r x) := by
  rw [← packed_set hr, set_same]
  congr 1
  funext i
  by_cases hi : i = r
  · subst hi; rw [set_same, h]
  · rw [set_other _ _ hi, set_other _ _ hi]

theorem packed_zero {k r : Nat} {σ : Regs} (h : σ r = 0) : ¬ pr r ∣ packed k σ := by
  intro hd
  obtain ⟨i, _, hi⟩ := ((pr_prime r).prime.dvd_finsetProd_iff _).1 hd
  have hp := Nat.prime_eq_prime_of_dvd_pow (pr_prime r) (pr_prime i) hi
  have : r = i := Nat.nth_injective Nat.infinite_setOfPred_prime hp
  subst this
  rw [h, Nat.pow_zero] at hi
  have := Nat.le_of_dvd (by omega) hi
  have := pr_pos r
  omega

/-- all registers of a program are below `k` -/
def Below (k : Nat) : Prog → Prop
  | .skip => True
  | .inc r => r < k
  | .seq p q => Below k p ∧ Below k q
  | .loop r p => r < k ∧ Below k p

theorem below_mono {k l : Nat} (h : k ≤ l) : ∀ p, Below k p → Below l p
  | .skip, _ => trivial
  | .inc _, h1 => Nat.lt_of_lt_of_le h1 h
  | .seq p q, h1 => ⟨below_mono h p h1.1, below_mono h q h1.2⟩
  | .loop _ p, h1 => ⟨Nat.lt_of_lt_of_le h1.1 h, below_mono h p h1.2⟩

theorem below_some : ∀ p, ∃ k, Below k p
  | .skip => ⟨0, trivial⟩
  | .inc r => ⟨r + 1, Nat.lt_succ_self r⟩
  | .seq p q => by
    obtain ⟨k, h⟩ := below_some p
    obtain ⟨l, h'⟩ := below_some q
    exact ⟨max k l, below_mono (Nat.le_max_left _ _) p h, below_mono (Nat.le_max_right _ _) q h'⟩
  | .loop r p => by
    obtain ⟨k, h⟩ := below_some p
    exact ⟨max k (r + 1), Nat.lt_of_lt_of_le (Nat.lt_succ_self r) (Nat.le_max_right _ _), below_mono (Nat.le_max_left _ _) p h⟩

theorem reach_done {P o r p k} {σ : Regs} (h : Fits P o (.loop r p)) (h0 : σ r = 0) :
    Reach P ⟨o, packed k σ, 0⟩ ⟨o + (2 * pr r + 6 + len p), packed k σ, 0⟩ := by
  have h1 := packed_zero (k := k) h0
  have h2 := reach_div_no h (packed k σ / pr r) (packed k σ % pr r) (Nat.mod_lt _ (by have := pr_pos r; omega)) fun h => h1 (Nat.dvd_of_mod_eq_zero h)
  rwa [Nat.div_add_mod] at h2

/-- the machine does what the program does -/
theorem reach_runs {p σ τ} (hr : Runs p σ τ) : ∀ {P : List Instr} {o k : Nat}, Fits P o p → Below k p → Reach P ⟨o, packed k σ, 0⟩ ⟨o + len p, packed k τ, 0⟩ := by
  induction hr with
  | skip => intro P o k _ _; exact .refl
  | @inc r σ =>
    intro P o k hf hb
    have := reach_mul hf (packed k σ)
    rwa [← packed_set hb] at this
  | seq _ _ ih1 ih2 =>
    intro P o k hf hb
    have h := (ih1 (fits_left hf) hb.1).trans (ih2 (fits_right hf) hb.2)
    rwa [Nat.add_assoc] at h
  | done h0 =>
    intro P o k hf hb
    exact reach_done hf h0
  | @more r p σ τ υ x h0 _ _ ih1 ih2 =>
    intro P o k hf hb
    obtain ⟨j, h1⟩ := reach_div_ok hf (packed k (σ.set r x))
    rw [← packed_more hb.1 h0] at h1
    have h2 := ih1 (fits_body hf) hb.2
    exact Reach.trans ⟨_, h1⟩ (h2.trans ((reach_back hf _).trans (ih2 hf hb)))

/-- if the machine halts the program ends -/
theorem runs_of_halts {P : List Instr} {k : Nat} : ∀ (p : Prog) {o : Nat}, Fits P o p → Below k p → ∀ (n : Nat) (σ : Regs), HaltsIn P n ⟨o, packed k σ, 0⟩ →
    ∃ τ n', n' ≤ n ∧ Runs p σ τ ∧ HaltsIn P n' ⟨o + len p, packed k τ, 0⟩
  | .skip, o, _, _ => fun n σ h => ⟨σ, n, Nat.le_refl n, .skip, h⟩
  | .inc r, o, hf, hb => fun n σ h => by
    obtain ⟨n', h1, h2⟩ := reach_halts (reach_runs (.inc (r := r) (σ := σ)) hf hb) h
    exact ⟨_, n', h1, .inc, h2⟩
  | .seq p q, o, hf, hb => fun n σ h => by
    obtain ⟨τ, n1, h1, h2, h3⟩ := runs_of_halts p (fits_left hf) hb.1 n σ h
    obtain ⟨υ, n2, h4, h5, h6⟩ := runs_of_halts q (fits_right hf) hb.2 n1 τ h3
    refine ⟨υ, n2, by omega, .seq h2 h5, ?_⟩
    rwa [Nat.add_assoc] at h6
  | .loop r p, o, hf, hb => by
    intro n
    induction n using Nat.strong_induction_on with
    | _ n ih =>
      intro σ h
      cases h0 : σ r with
      | zero =>
        obtain ⟨n', h1, h2⟩ := reach_halts (reach_done (k := k) hf h0) h
        exact ⟨σ, n', h1, .done h0, h2⟩
      | succ x =>
        obtain ⟨j, h1⟩ := reach_div_ok hf (packed k (σ.set r x))
        rw [← packed_more hb.1 h0] at h1
        obtain ⟨h2, h3⟩ := steps_halts h1 n h
        obtain ⟨τ, n1, h4, h5, h6⟩ := runs_of_halts p (fits_body hf) hb.2 _ _ h3
        obtain ⟨n2, h7, h8⟩ := reach_halts (reach_back hf _) h6
        obtain ⟨υ, n3, h9, h10, h11⟩ := ih n2 (by omega) τ h8
        exact ⟨υ, n3, by omega, .more h0 h5 h10, h11⟩

/-- the machine for a program -/
noncomputable def machineOf (p : Prog) : List Instr := (List.range (len p)).map (code p 0)

theorem machineOf_halts (p : Prog) {k : Nat} (hb : Below k p) (σ : Regs) : HaltsFrom (machineOf p) ⟨0, packed k σ, 0⟩ ↔ ∃ τ, Runs p σ τ := by
  have hf : Fits (machineOf p) 0 p := by
    intro i hi
    simp [machineOf, hi]
  rw [halts_iff_haltsIn]
  constructor
  · rintro ⟨n, h⟩
    obtain ⟨τ, _, _, h, _⟩ := runs_of_halts p hf hb n σ h
    exact ⟨τ, h⟩
  · rintro ⟨τ, h⟩
    obtain ⟨n, h⟩ := reach_runs h hf hb
    refine ⟨n, _, h, ?_⟩
    simp [Halted, machineOf]

/-- For every partial recursive function there is a machine that halts, started with `2 ^ n` in the first counter, if and only if the
function has a value for `n`. -/
theorem machine_of_partrec {f : Nat →. Nat} (hf : Nat.Partrec f) : ∃ P : List Instr, P ≠ [] ∧ ∀ n, HaltsFrom P ⟨0, 2 ^ n, 0⟩ ↔ (f n).Dom := by
  obtain ⟨p, hp⟩ := programmed_part (Nat.Partrec'.part_iff₁.2 (Partrec.nat_iff.2 hf)) (fun _ => 0) 1 2 (by simp) (by simp) (by simp)
  obtain ⟨k, hk⟩ := below_some p
  have hb : Below (k + 1) (.seq p (.inc 0)) := ⟨below_mono (by omega) p hk, Nat.succ_pos k⟩
  refine ⟨machineOf (.seq p (.inc 0)), ?_, fun n => ?_⟩
  · intro h
    have := congrArg List.length h
    simp [machineOf, len] at this
  · have e : packed (k + 1) (Regs.set (fun _ => 0) 0 n) = 2 ^ n := by
      unfold packed
      rw [Finset.prod_eq_single_of_mem 0 (by simp)]
      · rw [set_same, pr, Nat.nth_prime_zero_eq_two]
      · intro i _ hi
        rw [set_other _ _ hi, Nat.pow_zero]
    rw [← e, machineOf_halts _ hb]
    have hv : (vals (Regs.set (fun _ => 0) 0 n) fun _ : _root_.Fin 1 => 0).head = n := by simp [vals, Regs.set]
    have h := hp (Regs.set (fun _ => 0) 0 n)
    simp only [hv] at h
    constructor
    · rintro ⟨τ, hτ⟩
      cases hτ with
      | seq h1 _ => exact Part.dom_iff_mem.2 ⟨_, h.value _ h1⟩
    · intro hd
      obtain ⟨τ, h1⟩ := h.ends hd
      exact ⟨_, .seq h1 .inc⟩

/-- Minsky's theorem: there is a machine with two counters of which it cannot be computed when it halts. -/
theorem minsky : ∃ P : List Instr, P ≠ [] ∧ (fun c : Nat.Partrec.Code => (c.eval 0).Dom) ≤₀ fun n => HaltsFrom P ⟨0, 2 ^ n, 0⟩ := by
  have hf : Partrec fun n : Nat => Nat.Partrec.Code.eval (Denumerable.ofNat Nat.Partrec.Code n) 0 :=
    Nat.Partrec.Code.eval_part.comp (Computable.ofNat _) (Computable.const 0)
  obtain ⟨P, h0, h⟩ := machine_of_partrec (Partrec.nat_iff.1 hf)
  refine ⟨P, h0, Encodable.encode, Computable.encode, fun c => ?_⟩
  have := h (Encodable.encode c)
  simp only [Denumerable.ofNat_encode] at this
  exact this.symm

end DP.Reg
