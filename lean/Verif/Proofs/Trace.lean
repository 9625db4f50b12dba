/-
The rules entered until a fault are those of a match in progress.
-/
import Verif.Spec.Trace
import Verif.Proofs.Report
import Verif.Proofs.TreeSize

namespace DP
open Spec

variable {G : Str → Option Expr}

theorem ruleNamesL_append : ∀ a b : List Node, ruleNamesL (a ++ b) = ruleNamesL a ++ ruleNamesL b
  | [], b => by simp [ruleNamesL]
  | x :: a, b => by simp [ruleNamesL, ruleNamesL_append a b]

/-- the marks left by entering rules -/
def marks (tr : Bool) (l : List Str) : List Str := if tr = true then l.map (c!"r:" ++ ·) else []

theorem marks_append (tr : Bool) (a b : List Str) : marks tr (a ++ b) = marks tr a ++ marks tr b := by
  cases tr <;> simp [marks]

theorem marks_nil (tr : Bool) : marks tr [] = [] := by cases tr <;> simp [marks]

theorem enter_rules (tr : Bool) (j : Journal) (n : Str) : (j.enter tr n).rules = j.rules ++ marks tr [n] := by
  cases tr <;> simp [Journal.enter, marks]

/-- a fault `f` that arises while matching `e` from `s`, the rules `old` having been entered before -/
def Arises (G : Str → Option Expr) (tr : Bool) (e : Expr) (old : List Str) (s : Str) (f : Fault) : Prop :=
  ∃ ns m q read, Partly G e s ns m q ∧ f.rules = old ++ marks tr (ruleNamesL ns ++ openNames m) ∧
    q = read ++ f.rest ∧ read.length ≤ readAhead f.why

theorem arises_start {tr e old s f} (hr : f.rules = old) (h : ∃ read, s = read ++ f.rest ∧ read.length ≤ readAhead f.why) :
    Arises G tr e old s f := by
  obtain ⟨read, h1, h2⟩ := h
  exact ⟨[], [], s, read, .start _ _, by simp [hr, ruleNamesL, openNames, marks_nil], h1, h2⟩

theorem arises_map {tr e e' old s f} (hP : ∀ {ns m q}, Partly G e s ns m q → Partly G e' s ns m q)
    (h : Arises G tr e old s f) : Arises G tr e' old s f := by
  obtain ⟨ns, m, q, read, h1, h2⟩ := h
  exact ⟨ns, m, q, read, hP h1, h2⟩

theorem arises_tail {tr e e' old s r f ns0} (hP : ∀ {ns m q}, Partly G e r ns m q → Partly G e' s (ns0 ++ ns) m q)
    (h : Arises G tr e (old ++ marks tr (ruleNamesL ns0)) r f) : Arises G tr e' old s f := by
  obtain ⟨ns, m, q, read, h1, h2, h3⟩ := h
  refine ⟨ns0 ++ ns, m, q, read, hP h1, ?_, h3⟩
  rw [h2, ruleNamesL_append]
  simp [marks_append]

theorem arises_body {tr e n old s f} (hg : G n = some e) (h : Arises G tr e (old ++ marks tr [n]) s f) :
    Arises G tr (.ruleName n) old s f := by
  obtain ⟨ns, m, q, read, h1, h2, h3⟩ := h
  refine ⟨[], (n, ns) :: m, q, read, .body hg h1, ?_, h3⟩
  rw [h2]
  simp only [ruleNamesL, openNames, List.flatMap_cons, List.nil_append, List.append_assoc]
  rw [← marks_append]
  simp

/-- what a report says of the journal it started from -/
def Tells (G : Str → Option Expr) (tr : Bool) (e : Expr) (j : Journal) (s : Str) : Report → Prop
  | .bad f => Arises G tr e j.rules s f
  | .ok _ ns j' => j'.rules = j.rules ++ marks tr (ruleNamesL ns) ∧
      (j'.kept = j.kept ∨ ∃ f, j'.kept = some f ∧ Arises G tr e j.rules s f)

theorem reports_tells {tr e j s o} (h : Reports G tr e j s o) : Tells G tr e j s o := by
  induction h with
  | lit_ok | class_ok | dot_ok | eof_ok => exact ⟨by simp [ruleNamesL, ruleNames, marks_nil], .inl rfl⟩
  | and_nil | not_bad | rep_full => exact ⟨by simp [ruleNamesL, marks_nil], .inl rfl⟩
  | lit_differs a c b d r j _ => exact arises_start rfl ⟨a ++ [d], by simp, by simp [readAhead]⟩
  | lit_short a c b j => exact arises_start rfl ⟨a, by simp, by simp [readAhead]⟩
  | class_differs cs rs c r j _ => exact arises_start rfl ⟨[c], by simp, by simp [readAhead]⟩
  | eof_differs c r j => exact arises_start rfl ⟨[c], by simp, by simp [readAhead]⟩
  | class_end | dot_end | error | or_nil | not_ok => exact arises_start rfl ⟨[], by simp, by simp⟩
  | and_ok h1 h2 ih1 ih2 =>
    obtain ⟨a1, b1⟩ := ih1
    obtain ⟨a2, b2⟩ := ih2
    refine ⟨by rw [a2, a1, ruleNamesL_append, marks_append]; simp, ?_⟩
    rcases b2 with b2 | ⟨f, b2, b3⟩
    · rw [b2]
      rcases b1 with b1 | ⟨f, b1, b3⟩
      · exact .inl b1
      · exact .inr ⟨f, b1, arises_map .and_head b3⟩
    · rw [a1] at b3
      exact .inr ⟨f, b2, arises_tail (.and_tail (reports_peg h1)) b3⟩
  | and_bad _ ih => exact arises_map .and_head ih
  | and_tail_bad h1 _ ih1 ih2 =>
    obtain ⟨a1, b1⟩ := ih1
    have ih2 : Arises _ _ _ _ _ _ := ih2
    rw [a1] at ih2
    exact arises_tail (.and_tail (reports_peg h1)) ih2
  | or_ok _ ih =>
    refine ⟨ih.1, ih.2.imp_right ?_⟩
    rintro ⟨f, b, c⟩
    exact ⟨f, b, arises_map .or_head c⟩
  | or_crit _ _ ih | or_last _ _ ih => exact arises_map .or_head ih
  | or_next_ok h1 hn _ _ ih2 =>
    refine ⟨ih2.1, ih2.2.imp_right ?_⟩
    rintro ⟨f, b, c⟩
    have hp := reports_peg h1
    simp only [Report.outcome, hn] at hp
    exact ⟨f, b, arises_map (.or_tail hp) c⟩
  | or_next_bad h1 hn _ ih1 ih2 =>
    have hp := reports_peg h1
    simp only [Report.outcome, hn] at hp
    simp only [Tells, worse]
    split
    · exact arises_map .or_head ih1
    · exact arises_map (.or_tail hp) ih2
  | rep_more h0 h1 h2 ih1 ih2 =>
    obtain ⟨a1, b1⟩ := ih1
    obtain ⟨a2, b2⟩ := ih2
    refine ⟨by rw [a2, a1, ruleNamesL_append, marks_append]; simp, ?_⟩
    rcases b2 with b2 | ⟨f, b2, b3⟩
    · rw [b2]
      rcases b1 with b1 | ⟨f, b1, b3⟩
      · exact .inl b1
      · exact .inr ⟨f, b1, arises_map (.rep_head h0) b3⟩
    · rw [a1] at b3
      exact .inr ⟨f, b2, arises_tail (.rep_tail h0 (reports_peg h1)) b3⟩
  | rep_stop h0 _ _ ih => exact ⟨by simp [ruleNamesL, marks_nil], .inr ⟨_, rfl, arises_map (.rep_head h0) ih⟩⟩
  | rep_crit h0 _ _ ih | rep_few h0 _ _ ih => exact arises_map (.rep_head h0) ih
  | rep_more_bad h0 h1 _ ih1 ih2 =>
    obtain ⟨a1, b1⟩ := ih1
    have ih2 : Arises _ _ _ _ _ _ := ih2
    rw [a1] at ih2
    exact arises_tail (.rep_tail h0 (reports_peg h1)) ih2
  | @call_ok n e s r ns j j' hg _ ih =>
    obtain ⟨a, b⟩ := ih
    rw [enter_rules] at a b
    refine ⟨by rw [a, List.append_assoc, ← marks_append]; simp [ruleNamesL, ruleNames], ?_⟩
    rcases b with b | ⟨f, b, c⟩
    · exact .inl b
    · exact .inr ⟨f, b, arises_body hg c⟩
  | call_bad hg _ ih =>
    have ih : Arises _ _ _ _ _ _ := ih
    rw [enter_rules] at ih
    exact arises_body hg ih
  | @call_missing n s j hg =>
    refine ⟨[], [(n, [])], s, [], .enter n s, ?_, rfl, by simp⟩
    rw [enter_rules]
    simp [ruleNamesL, openNames]

/-- every fault that is reported arises from a match in progress of `main` -/
theorem rejects_arises {tr s f} (h : Rejects G tr s f) : Arises G tr (.ruleName c!"main") [] s f := by
  cases h with
  | failed h => exact reports_tells h
  | kept h _ hk =>
    rcases (reports_tells h).2 with h1 | ⟨f', h1, h2⟩
    · rw [hk] at h1; cases h1
    · rw [hk] at h1; cases h1; exact h2
  | @unread q ns j h _ hk =>
    refine ⟨ns, [], q, [], .done (reports_peg h), ?_, rfl, by simp⟩
    simpa [openNames, Journal.blank] using (reports_tells h).1

/-! ### Size -/

/-- the number of nodes of the frames, open ones included -/
def framesSize (m : List Frame) : Nat := (m.map fun f => forestSize f.2 + 1).sum

mutual
theorem ruleNames_length : ∀ t, (ruleNames t).length ≤ treeSize t
  | .val _ => by simp [ruleNames]
  | .eof => by simp [ruleNames]
  | .rule n ns => by
    have := ruleNamesL_length ns
    simp only [ruleNames, treeSize, List.length_cons]; omega
theorem ruleNamesL_length : ∀ ts, (ruleNamesL ts).length ≤ forestSize ts
  | [] => by simp [ruleNamesL]
  | t :: ts => by
    have := ruleNames_length t
    have := ruleNamesL_length ts
    simp only [ruleNamesL, forestSize, List.length_append]; omega
end

theorem openNames_length : ∀ m : List Frame, (openNames m).length ≤ framesSize m
  | [] => by simp [openNames]
  | f :: m => by
    have h1 := openNames_length m
    have h2 := ruleNamesL_length f.2
    simp only [openNames, framesSize, List.flatMap_cons, List.map_cons, List.sum_cons, List.length_append,
      List.length_cons] at *
    omega

theorem partly_length {e s ns m q} (h : Partly G e s ns m q) : q.length ≤ s.length := by
  induction h with
  | start | enter => exact Nat.le_refl _
  | done h => exact ok_length h
  | and_tail h _ ih | rep_tail _ h _ ih => exact Nat.le_trans ih (ok_length h)
  | and_head _ ih | or_head _ ih | or_tail _ _ ih | rep_head _ _ ih | body _ _ ih => exact ih

theorem partly_size {l : List Str} (hl : ∀ n e, G n = some e → n ∈ l) {W Z K top : Nat}
    (hW : ∀ n e, G n = some e → esize e + 1 ≤ W) (htop : top = W * l.length + W)
    (hZ : Z = 2 ^ top) (hK : K = Z * 4 ^ top) {e s ns m q} (h : Partly G e s ns m q) : ∀ {o}, Peg G e s o → esize e ≤ W →
    ∀ busy : List Str, busy.Nodup → busy ⊆ l → Avoids G e s busy →
      Cheap Z K (W * (l.length - busy.length) + esize e) (forestSize ns + framesSize m) (s.length - q.length) := by
  have hZ0 : 0 < Z := by rw [hZ]; exact Nat.pow_pos (by omega)
  have high : ∀ {x k : Nat}, x ≤ W → W * (l.length - k) + x ≤ top := by
    intro x k h1
    have := Nat.mul_le_mul_left W (Nat.sub_le l.length k)
    omega
  have highZ : ∀ {a}, a ≤ top → 2 ^ a ≤ Z := fun h => hZ ▸ Nat.pow_le_pow_right (by omega) h
  have one : ∀ {a m}, 0 < a → Cheap Z K a 1 m := by
    intro a m ha
    have h1 : 2 ^ 1 ≤ 2 ^ a := Nat.pow_le_pow_right (by omega) ha
    have h2 : Z * 4 ^ 1 ≤ Z * 4 ^ a := Nat.mul_le_mul_left _ (Nat.pow_le_pow_right (by omega) ha)
    exact ⟨fun _ => by omega, fun _ => by omega⟩
  have nought : ∀ {a}, Cheap Z K a 0 0 := fun {a} => ⟨fun _ => Nat.pow_pos (by omega), fun h => by omega⟩
  induction h with
  | start => intro o _ _ busy _ _ _; rw [Nat.sub_self]; exact nought
  | enter => intro o _ _ busy _ _ _; exact one (by simp only [esize]; omega)
  | done h =>
    intro o _ hw busy hb hbl ha
    simpa [framesSize] using size_le hl hW htop hZ hK h _ _ rfl hw busy hb hbl ha
  | @and_head e es s ns m q _ ih =>
    intro o ho hw busy hb hbl ha
    have hsz : esize (.and (e :: es)) = esize e + esize (.and es) + 1 := by simp only [esize, esizes]; omega
    obtain ⟨o', ho'⟩ : ∃ o', Peg G e s o' := by cases ho <;> exact ⟨_, ‹_›⟩
    exact cheap_le (ih ho' (by omega) busy hb hbl fun n hn hv => ha n hn (.and_head hv)) (by omega)
  | @and_tail e es s r ns ns' m q h1 h2 ih =>
    intro o ho hw busy hb hbl ha
    rw [forestSize_append, Nat.add_assoc]
    have hsz : esize (.and (e :: es)) = esize e + esize (.and es) + 1 := by simp only [esize, esizes]; omega
    obtain ⟨o', ho'⟩ : ∃ o', Peg G (.and es) r o' := by
      cases ho with
      | and_ok g g' | and_tail_fail g g' | and_tail_crit g g' => cases peg_det h1 g; exact ⟨_, g'⟩
      | and_fail g | and_crit g => cases peg_det h1 g
    have g := size_le hl hW htop hZ hK h1 _ _ rfl (by omega) busy hb hbl fun n hn hv => ha n hn (.and_head hv)
    have l1 := ok_length h1
    have l2 := partly_length h2
    rcases Nat.lt_or_ge r.length s.length with hlt | hge
    · have g' := ih ho' (by omega) [] List.nodup_nil (by simp) avoids_nil
      have g2 := cheap_next (d := W * (l.length - busy.length) + esize (.and (e :: es))) g
        (cheap_le g' (high (show esize (.and es) ≤ W by omega))) (by omega) (Nat.le_refl _) (.inr rfl) (by omega) (highZ (Nat.le_refl _)) (by omega)
      rw [show s.length - q.length = max (s.length - r.length) (s.length - r.length + (r.length - q.length)) by omega]
      exact g2
    · have hr : r = s := (peg_suffix h1 rfl).eq_of_length (Nat.le_antisymm l1 hge)
      subst hr
      have g' := ih ho' (by omega) busy hb hbl fun n hn hv => ha n hn (.and_tail h1 hv)
      have g2 := cheap_both (d := W * (l.length - busy.length) + esize (.and (e :: es))) g g' (by omega) (by omega) (by omega)
        (highZ (high hw))
      rw [show r.length - q.length = max (r.length - r.length) (r.length - q.length) by omega]
      exact g2
  | @or_head e es s ns m q _ ih =>
    intro o ho hw busy hb hbl ha
    have hsz : esize (.or (e :: es)) = esize e + esize (.or es) + 1 := by simp only [esize, esizes]; omega
    obtain ⟨o', ho'⟩ : ∃ o', Peg G e s o' := by cases ho <;> exact ⟨_, ‹_›⟩
    exact cheap_le (ih ho' (by omega) busy hb hbl fun n hn hv => ha n hn (.or_head hv)) (by omega)
  | @or_tail e es s ns m q h1 _ ih =>
    intro o ho hw busy hb hbl ha
    have hsz : esize (.or (e :: es)) = esize e + esize (.or es) + 1 := by simp only [esize, esizes]; omega
    obtain ⟨o', ho'⟩ : ∃ o', Peg G (.or es) s o' := by
      cases ho with
      | or_ok g | or_crit g => cases peg_det h1 g
      | or_next _ g => exact ⟨_, g⟩
    exact cheap_le (ih ho' (by omega) busy hb hbl fun n hn hv => ha n hn (.or_tail h1 hv)) (by omega)
  | @rep_head e mn mx s ns m q h0 _ ih =>
    intro o ho hw busy hb hbl ha
    have hsz : esize (.rep e mn mx) = esize e + mx.getD 0 + 2 := rfl
    obtain ⟨o', ho'⟩ : ∃ o', Peg G e s o' := by
      cases ho with
      | rep_full => exact absurd rfl h0
      | rep_more _ g _ | rep_more_fail _ g _ | rep_more_crit _ g _ => exact ⟨_, g⟩
      | rep_stop _ g | rep_few _ _ g | rep_crit _ g => exact ⟨_, g⟩
    exact cheap_le (ih ho' (by omega) busy hb hbl fun n hn hv => ha n hn (.rep_head h0 hv)) (by omega)
  | @rep_tail e mn mx s r ns ns' m q h0 h1 h2 ih =>
    intro o ho hw busy hb hbl ha
    rw [forestSize_append, Nat.add_assoc]
    have hsz : esize (.rep e mn mx) = esize e + mx.getD 0 + 2 := rfl
    have hsz' : esize (.rep e (mn - 1) (mx.map (· - 1))) = esize e + (mx.map (· - 1)).getD 0 + 2 := rfl
    have hle : (mx.map (· - 1)).getD 0 ≤ mx.getD 0 := by cases mx <;> simp
    obtain ⟨o', ho'⟩ : ∃ o', Peg G (.rep e (mn - 1) (mx.map (· - 1))) r o' := by
      cases ho with
      | rep_full => exact absurd rfl h0
      | rep_more _ g g' | rep_more_fail _ g g' | rep_more_crit _ g g' => cases peg_det h1 g; exact ⟨_, g'⟩
      | rep_stop _ g | rep_few _ _ g | rep_crit _ g => cases peg_det h1 g
    have g := size_le hl hW htop hZ hK h1 _ _ rfl (by omega) busy hb hbl fun n hn hv => ha n hn (.rep_head h0 hv)
    have l1 := ok_length h1
    have l2 := partly_length h2
    rcases Nat.lt_or_ge r.length s.length with hlt | hge
    · have g' := ih ho' (by omega) [] List.nodup_nil (by simp) avoids_nil
      have g2 := cheap_next (d := W * (l.length - busy.length) + esize (.rep e mn mx)) g
        (cheap_le g' (high (show esize (.rep e (mn - 1) (mx.map (· - 1))) ≤ W by omega))) (by omega) (Nat.le_refl _) (.inr rfl) (by omega)
        (highZ (Nat.le_refl _)) (by omega)
      rw [show s.length - q.length = max (s.length - r.length) (s.length - r.length + (r.length - q.length)) by omega]
      exact g2
    · have hr : r = s := (peg_suffix h1 rfl).eq_of_length (Nat.le_antisymm l1 hge)
      subst hr
      have g' := ih ho' (by omega) busy hb hbl fun n hn hv => ha n hn (.rep_tail h0 h1 hv)
      have hlt : (mx.map (· - 1)).getD 0 < mx.getD 0 := by
        cases mx with
        | none => exact absurd ho' (no_idle h1)
        | some j =>
          have : j ≠ 0 := fun h => h0 (by rw [h])
          simp only [Option.map_some, Option.getD_some]
          omega
      have g2 := cheap_both (d := W * (l.length - busy.length) + esize (.rep e mn mx)) g g' (by omega) (by omega) (by omega)
        (highZ (high hw))
      rw [show r.length - q.length = max (r.length - r.length) (r.length - q.length) by omega]
      exact g2
  | @body n e s ns m q hg _ ih =>
    intro o ho hw busy hb hbl ha
    have hb' : (n :: busy).Nodup := List.nodup_cons.2 ⟨fun hm => ha n hm (.refl _ _), hb⟩
    have hbl' : n :: busy ⊆ l := List.cons_subset.2 ⟨hl n e hg, hbl⟩
    have h4 := hW n e hg
    obtain ⟨o', ho'⟩ : ∃ o', Peg G e s o' := by
      cases ho with
      | call_ok g g' | call_fail g g' | call_crit g g' => rw [hg] at g; cases g; exact ⟨_, g'⟩
      | call_missing g => rw [hg] at g; cases g
    have h2 := ih ho' (by omega) (n :: busy) hb' hbl' fun m hm hv => by
        rcases List.mem_cons.1 hm with rfl | hm
        · exact no_return ho hg hv
        · exact ha m hm (.body hg hv)
    have h3 := busy_length hb' hbl'
    simp only [List.length_cons] at h2 h3
    have h5 : W * (l.length - busy.length) = W * (l.length - (busy.length + 1)) + W := by
      rw [← Nat.mul_succ]; congr 1; omega
    have h6 := cheap_succ (b := W * (l.length - busy.length) + 1) h2 hZ0 (by omega)
    simpa only [framesSize, forestSize, esize, Nat.add_zero, List.map_cons, List.sum_cons, Nat.zero_add,
      Nat.add_assoc, Nat.add_comm, Nat.add_left_comm] using h6

end DP
