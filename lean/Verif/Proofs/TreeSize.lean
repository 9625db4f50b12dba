/-
Trees are no bigger than a multiple of the text.
-/
import Verif.Spec.TreeSize
import Verif.Proofs.Linear
import Verif.Proofs.PegTree

namespace DP
open Spec

variable {G : Str → Option Expr}

theorem forestSize_append : ∀ (a b : List Node), forestSize (a ++ b) = forestSize a + forestSize b
  | [], b => by simp [forestSize]
  | x :: a, b => by simp [forestSize, forestSize_append a b]; omega

theorem forestDepth_append : ∀ (a b : List Node), forestDepth (a ++ b) = max (forestDepth a) (forestDepth b)
  | [], b => by simp [forestDepth]
  | x :: a, b => by simp [forestDepth, forestDepth_append a b]

/-! ### A match that ends does not come back to itself -/

/-- one step of `Visits` -/
inductive Turns (G : Str → Option Expr) : Expr × Str → Expr × Str → Prop
  | body {n e s} : G n = some e → Turns G (.ruleName n, s) (e, s)
  | and_head {e es s} : Turns G (.and (e :: es), s) (e, s)
  | and_tail {e es s r ns} : Peg G e s (.ok r ns) → Turns G (.and (e :: es), s) (.and es, r)
  | or_head {e es s} : Turns G (.or (e :: es), s) (e, s)
  | or_tail {e es s} : Peg G e s .fail → Turns G (.or (e :: es), s) (.or es, s)
  | not {e s} : Turns G (.not e, s) (e, s)
  | rep_head {e mn mx s} : mx ≠ some 0 → Turns G (.rep e mn mx, s) (e, s)
  | rep_tail {e mn mx s r ns} : mx ≠ some 0 → Peg G e s (.ok r ns) →
      Turns G (.rep e mn mx, s) (.rep e (mn - 1) (mx.map (· - 1)), r)

theorem turns_acc {e s o} (h : Peg G e s o) : Acc (fun y x => Turns G x y) (e, s) := by
  induction h with
  | lit_ok | lit_fail | class_ok | class_fail | class_end | dot_ok | dot_end | eof_ok | eof_fail | error =>
    exact ⟨_, fun y hy => by cases hy⟩
  | and_nil | or_nil => exact ⟨_, fun y hy => by cases hy⟩
  | rep_full => exact ⟨_, fun y hy => by cases hy <;> contradiction⟩
  | call_missing hg => exact ⟨_, fun y hy => by cases hy with | body h => rw [hg] at h; cases h⟩
  | call_ok hg _ ih | call_fail hg _ ih | call_crit hg _ ih =>
    exact ⟨_, fun y hy => by cases hy with | body h => rw [hg] at h; cases h; exact ih⟩
  | not_ok _ ih | not_fail _ ih | not_crit _ ih => exact ⟨_, fun y hy => by cases hy; exact ih⟩
  | and_fail h ih | and_crit h ih =>
    exact ⟨_, fun y hy => by
      cases hy with
      | and_head => exact ih
      | and_tail h' => cases peg_det h h'⟩
  | and_ok h _ ih ih' | and_tail_fail h _ ih ih' | and_tail_crit h _ ih ih' =>
    exact ⟨_, fun y hy => by
      cases hy with
      | and_head => exact ih
      | and_tail h' => cases peg_det h h'; exact ih'⟩
  | or_ok h ih | or_crit h ih =>
    exact ⟨_, fun y hy => by
      cases hy with
      | or_head => exact ih
      | or_tail h' => cases peg_det h h'⟩
  | or_next h _ ih ih' =>
    exact ⟨_, fun y hy => by
      cases hy with
      | or_head => exact ih
      | or_tail h' => exact ih'⟩
  | rep_stop _ h ih | rep_few _ _ h ih | rep_crit _ h ih =>
    exact ⟨_, fun y hy => by
      cases hy with
      | rep_head => exact ih
      | rep_tail _ h' => cases peg_det h h'⟩
  | rep_more _ h _ ih ih' | rep_more_fail _ h _ ih ih' | rep_more_crit _ h _ ih ih' =>
    exact ⟨_, fun y hy => by
      cases hy with
      | rep_head => exact ih
      | rep_tail _ h' => cases peg_det h h'; exact ih'⟩

theorem acc_no_cycle {α : Type} {r : α → α → Prop} {x : α} (h : Acc r x) : ¬ Relation.TransGen r x x := by
  induction h with
  | intro x _ ih =>
    intro ht
    cases ht with
    | single h => exact ih _ h (.single h)
    | tail h h' => exact ih _ h' (.head h' h)

theorem turns_of_visits {e s x t} (h : Visits G e s x t) : Relation.ReflTransGen (fun y x => Turns G x y) (x, t) (e, s) := by
  induction h with
  | refl => exact .refl
  | body h _ ih => exact .tail ih (.body h)
  | and_head _ ih => exact .tail ih .and_head
  | and_tail h _ ih => exact .tail ih (.and_tail h)
  | or_head _ ih => exact .tail ih .or_head
  | or_tail h _ ih => exact .tail ih (.or_tail h)
  | not _ ih => exact .tail ih .not
  | rep_head h _ ih => exact .tail ih (.rep_head h)
  | rep_tail h h' _ ih => exact .tail ih (.rep_tail h h')

/-- a rule that ends does not call itself at the same place -/
theorem no_return {n e s o} (h : Peg G (.ruleName n) s o) (hg : G n = some e) : ¬ Visits G e s (.ruleName n) s := fun hv =>
  acc_no_cycle (turns_acc h) (Relation.TransGen.tail' (turns_of_visits hv) (.body hg))

/-- an unbounded repetition of something that reads nothing does not end -/
theorem no_idle {e s ns} (h : Peg G e s (.ok s ns)) {mn o} : ¬ Peg G (.rep e mn none) s o := by
  intro hp
  generalize hx : Expr.rep e mn none = x at hp
  induction hp generalizing mn with
  | rep_full => cases hx
  | rep_stop _ h1 | rep_few _ _ h1 | rep_crit _ h1 => cases hx; cases peg_det h h1
  | rep_more _ h1 _ _ ih | rep_more_fail _ h1 _ _ ih | rep_more_crit _ h1 _ _ ih => cases hx; cases peg_det h h1; exact ih h rfl
  | _ => cases hx

/-- `busy` are rules that are being matched at `s` -/
def Avoids (G : Str → Option Expr) (e : Expr) (s : Str) (busy : List Str) : Prop :=
  ∀ n ∈ busy, ¬ Visits G e s (.ruleName n) s

theorem avoids_nil {e s} : Avoids G e s [] := by intro n h; cases h

/-! ### Depth -/

theorem busy_length {l busy : List Str} (hb : busy.Nodup) (hl : busy ⊆ l) : busy.length ≤ l.length :=
  (List.subperm_of_subset hb hl).length_le

theorem depth_le {l : List Str} (hl : ∀ n e, G n = some e → n ∈ l) {e s o} (h : Peg G e s o) : ∀ r ns, o = .ok r ns →
    ∀ busy : List Str, busy.Nodup → busy ⊆ l → Avoids G e s busy →
      forestDepth ns ≤ l.length * s.length + (l.length - busy.length) + 1 := by
  have later : ∀ {x : Expr} {s r ns ns' B}, r <:+ s →
      (∀ busy : List Str, busy.Nodup → busy ⊆ l → Avoids G x r busy →
        forestDepth ns' ≤ l.length * r.length + (l.length - busy.length) + 1) →
      (∀ busy : List Str, busy.Nodup → busy ⊆ l → (r = s → Avoids G x s busy) → forestDepth ns ≤ l.length * s.length + B + 1 → B = l.length - busy.length →
        forestDepth (ns ++ ns') ≤ l.length * s.length + B + 1) := by
    intro x s r ns ns' B hr ih busy hb hbl ha h1 hB
    rw [forestDepth_append]
    refine Nat.max_le.2 ⟨h1, ?_⟩
    rcases Nat.lt_or_ge r.length s.length with hlt | hge
    · have h2 := ih [] List.nodup_nil (by simp) avoids_nil
      have h3 := Nat.mul_le_mul_left l.length (show r.length + 1 ≤ s.length from hlt)
      rw [Nat.mul_add] at h3
      simp only [List.length_nil] at h2
      omega
    · have h4 : r = s := hr.eq_of_length (Nat.le_antisymm hr.length_le hge)
      subst h4
      rw [hB]
      exact ih busy hb hbl (ha rfl)
  induction h with
  | lit_ok | class_ok | dot_ok | eof_ok =>
    intro r ns ho busy _ _ _; cases ho
    simp only [forestDepth, treeDepth]
    omega
  | and_nil | not_fail | not_crit | rep_full | rep_stop =>
    intro r ns ho busy _ _ _; cases ho
    simp only [forestDepth]
    omega
  | and_ok h1 _ ih ih' =>
    intro r ns ho busy hb hbl ha; cases ho
    refine later (x := .and _) (peg_suffix h1 rfl) (ih' _ _ rfl) busy hb hbl ?_ (ih _ _ rfl busy hb hbl fun n hn hv => ha n hn (.and_head hv)) rfl
    rintro rfl n hn hv
    exact ha n hn (.and_tail h1 hv)
  | rep_more h0 h1 _ ih ih' =>
    intro r ns ho busy hb hbl ha; cases ho
    refine later (x := .rep _ _ _) (peg_suffix h1 rfl) (ih' _ _ rfl) busy hb hbl ?_ (ih _ _ rfl busy hb hbl fun n hn hv => ha n hn (.rep_head h0 hv)) rfl
    rintro rfl n hn hv
    exact ha n hn (.rep_tail h0 h1 hv)
  | or_ok _ ih =>
    intro r ns ho busy hb hbl ha; cases ho
    exact ih _ _ rfl busy hb hbl fun n hn hv => ha n hn (.or_head hv)
  | or_next h1 _ _ ih' =>
    intro r ns ho busy hb hbl ha
    exact ih' _ _ ho busy hb hbl fun n hn hv => ha n hn (.or_tail h1 hv)
  | @call_ok n e s r ns hg h1 ih =>
    intro r' ns' ho busy hb hbl ha; cases ho
    have h2 := ih _ _ rfl (n :: busy) (List.nodup_cons.2 ⟨fun hm => ha n hm (.refl _ _), hb⟩)
      (List.cons_subset.2 ⟨hl n e hg, hbl⟩) fun m hm hv => by
        rcases List.mem_cons.1 hm with rfl | hm
        · exact no_return (.call_ok hg h1) hg hv
        · exact ha m hm (.body hg hv)
    have h3 := busy_length (l := l) (busy := n :: busy) (List.nodup_cons.2 ⟨fun hm => ha n hm (.refl _ _), hb⟩)
      (List.cons_subset.2 ⟨hl n e hg, hbl⟩)
    simp only [List.length_cons] at h2 h3
    simp only [forestDepth, treeDepth]
    omega
  | _ => intro r ns ho; cases ho

/-! ### Size -/

theorem size_le {l : List Str} (hl : ∀ n e, G n = some e → n ∈ l) {W Z K top : Nat}
    (hW : ∀ n e, G n = some e → esize e + 1 ≤ W) (htop : top = W * l.length + W)
    (hZ : Z = 2 ^ top) (hK : K = Z * 4 ^ top) {e s o} (h : Peg G e s o) : ∀ r ns, o = .ok r ns → esize e ≤ W →
    ∀ busy : List Str, busy.Nodup → busy ⊆ l → Avoids G e s busy →
      Cheap Z K (W * (l.length - busy.length) + esize e) (forestSize ns) (s.length - r.length) := by
  have hZ0 : 0 < Z := by rw [hZ]; exact Nat.pow_pos (by omega)
  have high : ∀ {x k : Nat}, x ≤ W → W * (l.length - k) + x ≤ top := by
    intro x k h1
    have := Nat.mul_le_mul_left W (Nat.sub_le l.length k)
    omega
  have highZ : ∀ {a}, a ≤ top → 2 ^ a ≤ Z := fun h => hZ ▸ Nat.pow_le_pow_right (by omega) h
  have one : ∀ {a m}, 0 < a → Cheap Z K a 1 m := by
    intro a m ha
    have h1 : 2 ^ 1 ≤ 2 ^ a := Nat.pow_le_pow_right (by omega) ha
    have h2 : Z * 4 ^ 1 ≤ Z * 4 ^ a := Nat.mul_le_mul_left _ (Nat.pow_le_pow_right (by omega) ha)
    exact ⟨fun _ => by omega, fun _ => by omega⟩
  have nought : ∀ {a}, Cheap Z K a 0 0 := fun {a} => ⟨fun _ => Nat.pow_pos (by omega), fun h => by omega⟩
  induction h with
  | lit_ok | class_ok | dot_ok | eof_ok =>
    intro r ns ho _ busy _ _ _; cases ho
    exact one (by simp only [esize]; omega)
  | and_nil | not_fail | not_crit | rep_full | rep_stop =>
    intro r ns ho _ busy _ _ _; cases ho
    rw [Nat.sub_self]
    exact nought
  | @and_ok e es s r r' ns ns' h1 h2 ih ih' =>
    intro r0 ns0 ho hw busy hb hbl ha; cases ho
    rw [forestSize_append]
    have hsz : esize (.and (e :: es)) = esize e + esize (.and es) + 1 := by simp only [esize, esizes]; omega
    have g := ih _ _ rfl (by omega) busy hb hbl fun n hn hv => ha n hn (.and_head hv)
    have l1 := ok_length h1
    have l2 := ok_length h2
    rcases Nat.lt_or_ge r.length s.length with hlt | hge
    · have g' := ih' _ _ rfl (by omega) [] List.nodup_nil (by simp) avoids_nil
      have g2 := cheap_next (d := W * (l.length - busy.length) + esize (.and (e :: es))) g
        (cheap_le g' (high (show esize (.and es) ≤ W by omega))) (by omega) (Nat.le_refl _) (.inr rfl) (by omega) (highZ (Nat.le_refl _)) (by omega)
      rw [show s.length - r'.length = max (s.length - r.length) (s.length - r.length + (r.length - r'.length)) by omega]
      exact g2
    · have hr : r = s := (peg_suffix h1 rfl).eq_of_length (Nat.le_antisymm l1 hge)
      subst hr
      have g' := ih' _ _ rfl (by omega) busy hb hbl fun n hn hv => ha n hn (.and_tail h1 hv)
      have g2 := cheap_both (d := W * (l.length - busy.length) + esize (.and (e :: es))) g g' (by omega) (by omega) (by omega)
        (highZ (high hw))
      rw [show r.length - r'.length = max (r.length - r.length) (r.length - r'.length) by omega]
      exact g2
  | @rep_more e mn mx s r r' ns ns' h0 h1 h2 ih ih' =>
    intro r0 ns0 ho hw busy hb hbl ha; cases ho
    rw [forestSize_append]
    have hsz : esize (.rep e mn mx) = esize e + mx.getD 0 + 2 := rfl
    have hsz' : esize (.rep e (mn - 1) (mx.map (· - 1))) = esize e + (mx.map (· - 1)).getD 0 + 2 := rfl
    have hle : (mx.map (· - 1)).getD 0 ≤ mx.getD 0 := by cases mx <;> simp
    have g := ih _ _ rfl (by omega) busy hb hbl fun n hn hv => ha n hn (.rep_head h0 hv)
    have l1 := ok_length h1
    have l2 := ok_length h2
    rcases Nat.lt_or_ge r.length s.length with hlt | hge
    · have g' := ih' _ _ rfl (by omega) [] List.nodup_nil (by simp) avoids_nil
      have g2 := cheap_next (d := W * (l.length - busy.length) + esize (.rep e mn mx)) g
        (cheap_le g' (high (show esize (.rep e (mn - 1) (mx.map (· - 1))) ≤ W by omega))) (by omega) (Nat.le_refl _) (.inr rfl) (by omega)
        (highZ (Nat.le_refl _)) (by omega)
      rw [show s.length - r'.length = max (s.length - r.length) (s.length - r.length + (r.length - r'.length)) by omega]
      exact g2
    · have hr : r = s := (peg_suffix h1 rfl).eq_of_length (Nat.le_antisymm l1 hge)
      subst hr
      have g' := ih' _ _ rfl (by omega) busy hb hbl fun n hn hv => ha n hn (.rep_tail h0 h1 hv)
      have hlt : (mx.map (· - 1)).getD 0 < mx.getD 0 := by
        cases mx with
        | none => exact absurd h2 (no_idle h1)
        | some j =>
          have : j ≠ 0 := fun h => h0 (by rw [h])
          simp only [Option.map_some, Option.getD_some]
          omega
      have g2 := cheap_both (d := W * (l.length - busy.length) + esize (.rep e mn mx)) g g' (by omega) (by omega) (by omega)
        (highZ (high hw))
      rw [show r.length - r'.length = max (r.length - r.length) (r.length - r'.length) by omega]
      exact g2
  | @or_ok e es s r ns _ ih =>
    intro r0 ns0 ho hw busy hb hbl ha; cases ho
    have hsz : esize (.or (e :: es)) = esize e + esize (.or es) + 1 := by simp only [esize, esizes]; omega
    exact cheap_le (ih _ _ rfl (by omega) busy hb hbl fun n hn hv => ha n hn (.or_head hv)) (by omega)
  | @or_next e es s o h1 _ _ ih' =>
    intro r0 ns0 ho hw busy hb hbl ha
    have hsz : esize (.or (e :: es)) = esize e + esize (.or es) + 1 := by simp only [esize, esizes]; omega
    exact cheap_le (ih' _ _ ho (by omega) busy hb hbl fun n hn hv => ha n hn (.or_tail h1 hv)) (by omega)
  | @call_ok n e s r ns hg h1 ih =>
    intro r' ns' ho hw busy hb hbl ha; cases ho
    have hb' : (n :: busy).Nodup := List.nodup_cons.2 ⟨fun hm => ha n hm (.refl _ _), hb⟩
    have hbl' : n :: busy ⊆ l := List.cons_subset.2 ⟨hl n e hg, hbl⟩
    have h4 := hW n e hg
    have h2 := ih _ _ rfl (by omega) (n :: busy) hb' hbl' fun m hm hv => by
        rcases List.mem_cons.1 hm with rfl | hm
        · exact no_return (.call_ok hg h1) hg hv
        · exact ha m hm (.body hg hv)
    have h3 := busy_length hb' hbl'
    simp only [List.length_cons] at h2 h3
    have h5 : W * (l.length - busy.length) = W * (l.length - (busy.length + 1)) + W := by
      rw [← Nat.mul_succ]; congr 1; omega
    have h6 := cheap_succ (b := W * (l.length - busy.length) + 1) h2 hZ0 (by omega)
    simpa only [forestSize, treeSize, esize, Nat.add_zero] using h6
  | _ => intro r ns ho; cases ho

end DP
