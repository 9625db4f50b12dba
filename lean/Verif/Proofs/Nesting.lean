/-
The work grows with the power of the length that is the nesting of unbounded repetitions.
-/
import Verif.Spec.Nesting
import Verif.Spec.Refs
import Verif.Proofs.Linear

namespace DP
open Spec

section
variable {G : Str → Option Expr}

/-- the work for `e` is at most `K` times the power -/
def Costs (G : Str → Option Expr) (e : Expr) (d K : Nat) : Prop :=
  ∀ s c dd, Effort G (.one e) s c dd → c ≤ K * (s.length + 1) ^ d

theorem costs_mono {e d K K'} (h : Costs G e d K) (hK : K ≤ K') : Costs G e d K' :=
  fun s c dd he => (h s c dd he).trans (Nat.mul_le_mul_right _ hK)

theorem costs_at {e d K s c dd n} (h : Costs G e d K) (he : Effort G (.one e) s c dd) (hn : s.length ≤ n) : c ≤ K * (n + 1) ^ d :=
  (h s c dd he).trans (Nat.mul_le_mul_left _ (Nat.pow_le_pow_left (by omega) d))

theorem costs_all {es : List Expr} {d} (h : ∀ e ∈ es, ∃ K, Costs G e d K) : ∃ K, ∀ e ∈ es, Costs G e d K := by
  induction es with
  | nil => exact ⟨0, by simp⟩
  | cons e es ih =>
    obtain ⟨K, hK⟩ := h e (by simp)
    obtain ⟨K', hK'⟩ := ih fun x hx => h x (List.mem_cons_of_mem _ hx)
    refine ⟨K + K', fun x hx => ?_⟩
    rcases List.mem_cons.1 hx with rfl | hx
    · exact costs_mono hK (by omega)
    · exact costs_mono (hK' x hx) (by omega)

theorem costs_seq {d K n} : ∀ (es : List Expr), (∀ e ∈ es, Costs G e d K) → ∀ s c dd, Effort G (.seq es) s c dd → s.length ≤ n →
    c ≤ es.length * (K * (n + 1) ^ d)
  | [], _, s, c, dd, h, _ => by cases h; simp
  | e :: es, hK, s, c, dd, h, hn => by
    rw [List.length_cons, Nat.succ_mul]
    cases h with
    | seq_more h1 hp h2 =>
      have := costs_at (hK e (by simp)) h1 hn
      have := costs_seq es (fun x hx => hK x (List.mem_cons_of_mem _ hx)) _ _ _ h2 ((ok_length hp).trans hn)
      omega
    | seq_stop h1 _ _ =>
      have := costs_at (hK e (by simp)) h1 hn
      omega

theorem costs_alt {d K n} : ∀ (es : List Expr), (∀ e ∈ es, Costs G e d K) → ∀ s c dd, Effort G (.alt es) s c dd → s.length ≤ n →
    c ≤ es.length * (K * (n + 1) ^ d)
  | [], _, s, c, dd, h, _ => by cases h; simp
  | e :: es, hK, s, c, dd, h, hn => by
    rw [List.length_cons, Nat.succ_mul]
    cases h with
    | alt_more h1 _ h2 =>
      have := costs_at (hK e (by simp)) h1 hn
      have := costs_alt es (fun x hx => hK x (List.mem_cons_of_mem _ hx)) _ _ _ h2 hn
      omega
    | alt_stop h1 _ _ =>
      have := costs_at (hK e (by simp)) h1 hn
      omega

theorem costs_bounded {e d K n} (hK : Costs G e d K) : ∀ (m : Nat) s c dd, Effort G (.loop e (some m)) s c dd → s.length ≤ n →
    c ≤ m * (K * (n + 1) ^ d)
  | 0, s, c, dd, h, _ => by
    cases h with
    | loop_full => simp
    | loop_more hm => exact absurd rfl hm
    | loop_stop hm => exact absurd rfl hm
  | m + 1, s, c, dd, h, hn => by
    rw [Nat.succ_mul]
    cases h with
    | loop_more _ h1 hp h2 =>
      have := costs_at hK h1 hn
      have := costs_bounded hK m _ _ _ h2 ((ok_length hp).trans hn)
      omega
    | loop_stop _ h1 _ _ =>
      have := costs_at hK h1 hn
      omega

theorem costs_unbounded {e d K n} (hK : Costs G e d K) (he : ¬ CanEmpty G e) : ∀ (k : Nat) s c dd, s.length = k →
    Effort G (.loop e none) s c dd → s.length ≤ n → c ≤ (k + 1) * (K * (n + 1) ^ d) := by
  intro k
  induction k using Nat.strongRecOn with
  | ind k ih =>
    intro s c dd hk h hn
    cases h with
    | loop_more _ h1 hp h2 =>
      have hl := peg_length hp _ _ rfl
      have hlt : _ < k := hk ▸ Nat.lt_of_le_of_ne hl.1 fun h => he (hl.2 h)
      have h3 := ih _ hlt _ _ _ rfl h2 (hl.1.trans hn)
      have h4 := costs_at hK h1 hn
      have h5 := Nat.mul_le_mul_right (K * (n + 1) ^ d) (Nat.succ_le_of_lt hlt)
      rw [Nat.succ_mul k]
      simp only [Nat.succ_eq_add_one] at h5
      omega
    | loop_stop _ h1 _ _ =>
      have h4 := costs_at hK h1 hn
      rw [Nat.succ_mul]
      omega

theorem one_more {a K n d : Nat} (h : a ≤ K * (n + 1) ^ d) : a + 1 ≤ (K + 1) * (n + 1) ^ d := by
  have : 1 ≤ (n + 1) ^ d := Nat.pow_pos (by omega)
  rw [Nat.succ_mul]
  omega

/-- the work for an expression with `d` repetitions inside of one another -/
theorem nested_costs (hR : ∀ n e, G n = some e → RepOK G e) {e d} (h : Nested G e d) : RepOK G e → ∃ K, Costs G e d K := by
  induction h with
  | simple a d =>
    intro _
    refine ⟨1, fun s c dd he => ?_⟩
    cases he
    rw [Nat.one_mul]
    exact Nat.pow_pos (by omega)
  | @and es d _ ih =>
    intro hr
    obtain ⟨K, hK⟩ := costs_all fun x hx => ih x hx fun b mn hs => hr b mn (.and hx hs)
    refine ⟨es.length * K + 1, fun s c dd he => ?_⟩
    cases he with
    | and he =>
      refine one_more ?_
      rw [Nat.mul_assoc]
      exact costs_seq _ hK _ _ _ he (Nat.le_refl _)
  | @or es d _ ih =>
    intro hr
    obtain ⟨K, hK⟩ := costs_all fun x hx => ih x hx fun b mn hs => hr b mn (.or hx hs)
    refine ⟨es.length * K + 1, fun s c dd he => ?_⟩
    cases he with
    | or he =>
      refine one_more ?_
      rw [Nat.mul_assoc]
      exact costs_alt _ hK _ _ _ he (Nat.le_refl _)
  | not _ ih =>
    intro hr
    obtain ⟨K, hK⟩ := ih fun b mn hs => hr b mn (.not hs)
    refine ⟨K + 1, fun s c dd he => ?_⟩
    cases he with
    | not he => exact one_more (hK _ _ _ he)
  | bounded mn m _ ih =>
    intro hr
    obtain ⟨K, hK⟩ := ih fun b mn hs => hr b mn (.rep hs)
    refine ⟨m * K + 1, fun s c dd he => ?_⟩
    cases he with
    | rep he =>
      refine one_more ?_
      rw [Nat.mul_assoc]
      exact costs_bounded hK _ _ _ _ he (Nat.le_refl _)
  | unbounded mn _ ih =>
    intro hr
    obtain ⟨K, hK⟩ := ih fun b mn hs => hr b mn (.rep hs)
    refine ⟨K + 1, fun s c dd he => ?_⟩
    cases he with
    | rep he =>
      refine one_more ?_
      have := costs_unbounded hK (hr _ _ (.refl _)) _ _ _ _ rfl he (Nat.le_refl _)
      rwa [Nat.mul_left_comm, Nat.mul_comm (s.length + 1), ← Nat.pow_succ] at this
  | call hg _ ih =>
    intro _
    obtain ⟨K, hK⟩ := ih (hR _ _ hg)
    refine ⟨K + 1, fun s c dd he => ?_⟩
    cases he with
    | call hg' he => rw [hg] at hg'; cases hg'; exact one_more (hK _ _ _ he)
    | missing hg' => rw [hg] at hg'; cases hg'
  | missing d hg =>
    intro _
    refine ⟨1, fun s c dd he => ?_⟩
    cases he with
    | call hg' => rw [hg] at hg'; cases hg'
    | missing =>
      rw [Nat.one_mul]
      exact Nat.pow_pos (by omega)

theorem nested_mono {e d} (h : Nested G e d) : ∀ {d'}, d ≤ d' → Nested G e d' := by
  induction h with
  | simple a d => intro d' _; exact .simple a d'
  | and _ ih => intro d' hd; exact .and fun e he => ih e he hd
  | or _ ih => intro d' hd; exact .or fun e he => ih e he hd
  | not _ ih => intro d' hd; exact .not (ih hd)
  | bounded mn m _ ih => intro d' hd; exact .bounded mn m (ih hd)
  | unbounded mn _ ih =>
    intro d' hd
    cases d' with
    | zero => omega
    | succ d' => exact .unbounded mn (ih (by omega))
  | call hg _ ih => intro d' hd; exact .call hg (ih hd)
  | missing d hg => intro d' _; exact .missing d' hg

mutual
theorem nested_expr : ∀ e, (∀ n, Refs e n → ∃ d, Nested G (.ruleName n) d) → ∃ d, Nested G e d
  | .simple a, _ => ⟨0, .simple a 0⟩
  | .and es, h => by
    obtain ⟨d, hd⟩ := nested_exprs es fun e he n hn => h n (.and he hn)
    exact ⟨d, .and hd⟩
  | .or es, h => by
    obtain ⟨d, hd⟩ := nested_exprs es fun e he n hn => h n (.or he hn)
    exact ⟨d, .or hd⟩
  | .not e, h => by
    obtain ⟨d, hd⟩ := nested_expr e fun n hn => h n (.not hn)
    exact ⟨d, .not hd⟩
  | .rep e mn none, h => by
    obtain ⟨d, hd⟩ := nested_expr e fun n hn => h n (.rep hn)
    exact ⟨d + 1, .unbounded mn hd⟩
  | .rep e mn (some m), h => by
    obtain ⟨d, hd⟩ := nested_expr e fun n hn => h n (.rep hn)
    exact ⟨d, .bounded mn m hd⟩
  | .ruleName n, h => h n (.here n)
theorem nested_exprs : ∀ es : List Expr, (∀ e ∈ es, ∀ n, Refs e n → ∃ d, Nested G (.ruleName n) d) → ∃ d, ∀ e ∈ es, Nested G e d
  | [], _ => ⟨0, by simp⟩
  | e :: es, h => by
    obtain ⟨d, hd⟩ := nested_expr e (h e (by simp))
    obtain ⟨d', hd'⟩ := nested_exprs es fun x hx => h x (List.mem_cons_of_mem _ hx)
    refine ⟨max d d', fun x hx => ?_⟩
    rcases List.mem_cons.1 hx with rfl | hx
    · exact nested_mono hd (by omega)
    · exact nested_mono (hd' x hx) (by omega)
end

theorem nested_rule {rk : Str → Nat} (hrk : ∀ n m, (∃ e, G n = some e ∧ Refs e m) → rk m < rk n) :
    ∀ k n, rk n = k → ∃ d, Nested G (.ruleName n) d := by
  intro k
  induction k using Nat.strongRecOn with
  | ind k ih =>
    rintro n rfl
    cases hg : G n with
    | none => exact ⟨0, .missing 0 hg⟩
    | some e =>
      obtain ⟨d, hd⟩ := nested_expr (G := G) e fun m hm => ih _ (hrk n m ⟨e, hg, hm⟩) m rfl
      exact ⟨d, .call hg hd⟩

end
end DP
