/-
What keeps a match from ending, and how much work a match that ends is.
-/
import Verif.Proofs.TreeSize
import Verif.Proofs.Meter

namespace DP
open Spec

variable {G : Str → Option Expr}

/-- nothing that is met calls itself at the same place or repeats without an end something that reads nothing -/
structure Free (G : Str → Option Expr) (e : Expr) (s : Str) : Prop where
  again : ∀ n body t, Visits G e s (.ruleName n) t → G n = some body → ¬ Visits G body t (.ruleName n) t
  idle : ∀ b mn t ns, Visits G e s (.rep b mn none) t → ¬ Peg G b t (.ok t ns)

theorem Free.of {e s e' s'} (h : Free G e s) (hv : ∀ x t, Visits G e' s' x t → Visits G e s x t) : Free G e' s' :=
  ⟨fun n body t h1 => h.again n body t (hv _ _ h1), fun b mn t ns h1 => h.idle b mn t ns (hv _ _ h1)⟩

theorem Avoids.of {e e' s busy} (h : Avoids G e s busy) (hv : ∀ x t, Visits G e' s x t → Visits G e s x t) : Avoids G e' s busy :=
  fun n hn h1 => h n hn (hv _ _ h1)

theorem free_ends {l : List Str} (hl : ∀ n e, G n = some e → n ∈ l) (e : Expr) (s : Str) (busy : List Str)
    (hb : busy.Nodup) (hbl : busy ⊆ l) (ha : Avoids G e s busy) (hf : Free G e s) : ∃ o, Peg G e s o := by
  match e with
  | .simple a => exact total_atom G a s
  | .ruleName n =>
    cases hg : G n with
    | none => exact ⟨_, .call_missing hg⟩
    | some body =>
      have h1 : (n :: busy).Nodup := List.nodup_cons.2 ⟨fun hm => ha n hm (.refl _ _), hb⟩
      have h2 : n :: busy ⊆ l := List.cons_subset.2 ⟨hl n body hg, hbl⟩
      have h3 := busy_length h1 h2
      obtain ⟨o, ho⟩ := free_ends hl body s (n :: busy) h1 h2 (fun m hm hv => by
        rcases List.mem_cons.1 hm with rfl | hm
        · exact hf.again _ _ _ (.refl _ _) hg hv
        · exact ha m hm (.body hg hv)) (hf.of fun x t => .body hg)
      cases o with
      | ok => exact ⟨_, .call_ok hg ho⟩
      | fail => exact ⟨_, .call_fail hg ho⟩
      | crit => exact ⟨_, .call_crit hg ho⟩
  | .not e =>
    obtain ⟨o, ho⟩ := free_ends hl e s busy hb hbl (ha.of fun x t => .not) (hf.of fun x t => .not)
    cases o with
    | ok => exact ⟨_, .not_ok ho⟩
    | fail => exact ⟨_, .not_fail ho⟩
    | crit => exact ⟨_, .not_crit ho⟩
  | .and [] => exact ⟨_, .and_nil s⟩
  | .or [] => exact ⟨_, .or_nil s⟩
  | .or (e :: es) =>
    obtain ⟨o, ho⟩ := free_ends hl e s busy hb hbl (ha.of fun x t => .or_head) (hf.of fun x t => .or_head)
    cases o with
    | ok => exact ⟨_, .or_ok ho⟩
    | crit => exact ⟨_, .or_crit ho⟩
    | fail =>
      obtain ⟨o, ho'⟩ := free_ends hl (.or es) s busy hb hbl (ha.of fun x t => .or_tail ho) (hf.of fun x t => .or_tail ho)
      exact ⟨_, .or_next ho ho'⟩
  | .and (e :: es) =>
    obtain ⟨o, ho⟩ := free_ends hl e s busy hb hbl (ha.of fun x t => .and_head) (hf.of fun x t => .and_head)
    cases o with
    | fail => exact ⟨_, .and_fail ho⟩
    | crit => exact ⟨_, .and_crit ho⟩
    | ok r ns =>
      have hr := peg_suffix ho rfl
      have h' : ∃ o, Peg G (.and es) r o := by
        rcases Nat.lt_or_ge r.length s.length with hlt | hge
        · exact free_ends hl (.and es) r [] List.nodup_nil (by simp) avoids_nil (hf.of fun x t => .and_tail ho)
        · have h4 : r = s := hr.eq_of_length (Nat.le_antisymm hr.length_le hge)
          have h5 : (∃ o, Peg G (.and es) s o) := free_ends hl (.and es) s busy hb hbl
            (ha.of fun x t => .and_tail (h4 ▸ ho)) (hf.of fun x t => .and_tail (h4 ▸ ho))
          rw [h4]; exact h5
      obtain ⟨o, ho'⟩ := h'
      cases o with
      | ok => exact ⟨_, .and_ok ho ho'⟩
      | fail => exact ⟨_, .and_tail_fail ho ho'⟩
      | crit => exact ⟨_, .and_tail_crit ho ho'⟩
  | .rep e mn (some 0) => exact ⟨_, .rep_full _ _ _⟩
  | .rep e mn (some (k + 1)) =>
    obtain ⟨o, ho⟩ := free_ends hl e s busy hb hbl (ha.of fun x t => .rep_head (by simp)) (hf.of fun x t => .rep_head (by simp))
    cases o with
    | fail =>
      rcases Nat.eq_zero_or_pos mn with rfl | hm
      · exact ⟨_, .rep_stop (by simp) ho⟩
      · exact ⟨_, .rep_few (by simp) hm ho⟩
    | crit => exact ⟨_, .rep_crit (by simp) ho⟩
    | ok r ns =>
      have hr := peg_suffix ho rfl
      have h' : ∃ o, Peg G (.rep e (mn - 1) (some k)) r o := by
        rcases Nat.lt_or_ge r.length s.length with hlt | hge
        · exact free_ends hl (.rep e (mn - 1) (some k)) r [] List.nodup_nil (by simp) avoids_nil (hf.of fun x t => .rep_tail (mx := some (k + 1)) (by simp) ho)
        · have h4 : r = s := hr.eq_of_length (Nat.le_antisymm hr.length_le hge)
          have h5 : (∃ o, Peg G (.rep e (mn - 1) (some k)) s o) := free_ends hl (.rep e (mn - 1) (some k)) s busy hb hbl
            (ha.of fun x t => .rep_tail (mx := some (k + 1)) (by simp) (h4 ▸ ho)) (hf.of fun x t => .rep_tail (mx := some (k + 1)) (by simp) (h4 ▸ ho))
          rw [h4]; exact h5
      obtain ⟨o, ho'⟩ := h'
      cases o with
      | ok => exact ⟨_, .rep_more (mx := some (k + 1)) (by simp) ho ho'⟩
      | fail => exact ⟨_, .rep_more_fail (mx := some (k + 1)) (by simp) ho ho'⟩
      | crit => exact ⟨_, .rep_more_crit (mx := some (k + 1)) (by simp) ho ho'⟩
  | .rep e mn none =>
    obtain ⟨o, ho⟩ := free_ends hl e s busy hb hbl (ha.of fun x t => .rep_head (by simp)) (hf.of fun x t => .rep_head (by simp))
    cases o with
    | fail =>
      rcases Nat.eq_zero_or_pos mn with rfl | hm
      · exact ⟨_, .rep_stop (by simp) ho⟩
      · exact ⟨_, .rep_few (by simp) hm ho⟩
    | crit => exact ⟨_, .rep_crit (by simp) ho⟩
    | ok r ns =>
      have hr := peg_suffix ho rfl
      have hlt : r.length < s.length := by
        rcases Nat.lt_or_ge r.length s.length with hlt | hge
        · exact hlt
        · have h4 : r = s := hr.eq_of_length (Nat.le_antisymm hr.length_le hge)
          exact absurd (h4 ▸ ho) (hf.idle _ _ _ ns (.refl _ _))
      obtain ⟨o, ho'⟩ := free_ends hl (.rep e (mn - 1) none) r [] List.nodup_nil (by simp) avoids_nil
        (hf.of fun x t => .rep_tail (mx := none) (by simp) ho)
      cases o with
      | ok => exact ⟨_, .rep_more (mx := none) (by simp) ho ho'⟩
      | fail => exact ⟨_, .rep_more_fail (mx := none) (by simp) ho ho'⟩
      | crit => exact ⟨_, .rep_more_crit (mx := none) (by simp) ho ho'⟩
termination_by (s.length, l.length - busy.length, esize e)
decreasing_by
  all_goals first
    | (apply Prod.Lex.left; omega)
    | (apply Prod.Lex.right; apply Prod.Lex.left; simp only [List.length_cons] at *; omega)
    | (apply Prod.Lex.right; apply Prod.Lex.right; simp only [esize, esizes, Option.getD]; omega)

/-! ### how much work -/

/-- what a task is about -/
def About : Task → Expr → Prop
  | .one e, x => x = e
  | .seq es, x => x = .and es
  | .alt es, x => x = .or es
  | .loop e mx, x => ∃ mn, x = .rep e mn mx

def taskHeight : Task → Nat
  | .one e => height e
  | .seq es => heights es
  | .alt es => heights es
  | .loop e _ => height e

theorem effort_depth {l : List Str} {H : Nat} (hl : ∀ n e, G n = some e → n ∈ l ∧ height e ≤ H) {t s c d} (h : Effort G t s c d) :
    ∀ x, About t x → ∀ busy : List Str, busy.Nodup → busy ⊆ l → Avoids G x s busy →
      d ≤ taskHeight t + (l.length - busy.length) * H + s.length * (l.length * H) := by
  have later : ∀ {x : Expr} {s r : Str} {hh d'}, r <:+ s →
      (∀ busy : List Str, busy.Nodup → busy ⊆ l → Avoids G x r busy →
        d' ≤ hh + (l.length - busy.length) * H + r.length * (l.length * H)) →
      ∀ busy : List Str, busy.Nodup → busy ⊆ l → (r = s → Avoids G x s busy) →
        d' ≤ hh + (l.length - busy.length) * H + s.length * (l.length * H) := by
    intro x s r hh d' hr ih busy hb hbl ha
    rcases Nat.lt_or_ge r.length s.length with hlt | hge
    · have h2 := ih [] List.nodup_nil (by simp) avoids_nil
      have h3 := Nat.mul_le_mul_right (l.length * H) (show r.length + 1 ≤ s.length from hlt)
      rw [Nat.add_mul, Nat.one_mul] at h3
      simp only [List.length_nil, Nat.sub_zero] at h2
      omega
    · have h4 : r = s := hr.eq_of_length (Nat.le_antisymm hr.length_le hge)
      subst h4
      exact ih busy hb hbl (ha rfl)
  induction h with
  | simple a s => intro x _ busy _ _ _; simp only [taskHeight, height]; omega
  | missing => intro x _ busy _ _ _; simp only [taskHeight, height]; omega
  | seq_nil | alt_nil | loop_full => intro x _ busy _ _ _; omega
  | and _ ih | or _ ih =>
    rintro x rfl busy hb hbl ha
    have := ih _ rfl busy hb hbl ha
    simp only [taskHeight, height] at *
    omega
  | not _ ih =>
    rintro x rfl busy hb hbl ha
    have := ih _ rfl busy hb hbl (ha.of fun x t => .not)
    simp only [taskHeight, height] at *
    omega
  | rep _ ih =>
    rintro x rfl busy hb hbl ha
    have := ih _ ⟨_, rfl⟩ busy hb hbl ha
    simp only [taskHeight, height] at *
    omega
  | @call n e s c d hg h1 ih =>
    rintro x rfl busy hb hbl ha
    obtain ⟨o, ho⟩ := effort_ends (Effort.call hg h1)
    have h2 : (n :: busy).Nodup := List.nodup_cons.2 ⟨fun hm => ha n hm (.refl _ _), hb⟩
    have h3 : n :: busy ⊆ l := List.cons_subset.2 ⟨(hl n e hg).1, hbl⟩
    have h4 := ih _ rfl (n :: busy) h2 h3 fun m hm hv => by
      rcases List.mem_cons.1 hm with rfl | hm
      · exact no_return ho hg hv
      · exact ha m hm (.body hg hv)
    have h5 := busy_length h2 h3
    simp only [taskHeight, height, List.length_cons] at *
    have h6 : l.length - busy.length = l.length - (busy.length + 1) + 1 := by omega
    have h7 := (hl n e hg).2
    rw [h6, Nat.add_mul, Nat.one_mul]
    omega
  | @seq_more e es s r ns c d c' d' _ hp _ ih ih' =>
    rintro x rfl busy hb hbl ha
    have h1 := ih _ rfl busy hb hbl (ha.of fun x t => .and_head)
    have h2 := later (peg_suffix hp rfl) (ih' _ rfl) busy hb hbl (by rintro rfl; exact ha.of fun x t => .and_tail hp)
    simp only [taskHeight, heights] at *
    omega
  | seq_stop _ hp _ ih =>
    rintro x rfl busy hb hbl ha
    have h1 := ih _ rfl busy hb hbl (ha.of fun x t => .and_head)
    simp only [taskHeight, heights] at *
    omega
  | alt_more _ hp _ ih ih' =>
    rintro x rfl busy hb hbl ha
    have h1 := ih _ rfl busy hb hbl (ha.of fun x t => .or_head)
    have h2 := ih' _ rfl busy hb hbl (ha.of fun x t => .or_tail hp)
    simp only [taskHeight, heights] at *
    omega
  | alt_stop _ hp _ ih =>
    rintro x rfl busy hb hbl ha
    have h1 := ih _ rfl busy hb hbl (ha.of fun x t => .or_head)
    simp only [taskHeight, heights] at *
    omega
  | @loop_more e mx s r ns c d c' d' hm _ hp _ ih ih' =>
    rintro x ⟨mn, rfl⟩ busy hb hbl ha
    have h1 := ih _ rfl busy hb hbl (ha.of fun x t => .rep_head hm)
    have h2 := later (x := .rep e (mn - 1) (mx.map (· - 1))) (peg_suffix hp rfl) (ih' _ ⟨_, rfl⟩) busy hb hbl
      (by rintro rfl; exact ha.of fun x t => .rep_tail hm hp)
    simp only [taskHeight] at *
    omega
  | loop_stop hm _ hp _ ih =>
    rintro x ⟨mn, rfl⟩ busy hb hbl ha
    have h1 := ih _ rfl busy hb hbl (ha.of fun x t => .rep_head hm)
    simp only [taskHeight] at *
    omega

def taskWidth : Task → Nat
  | .one e => width e
  | .seq es => max es.length (widths es)
  | .alt es => max es.length (widths es)
  | .loop e none => width e
  | .loop e (some m) => max m (width e)

/-- the number of parts of a task at a text of `len` characters -/
def taskParts (len : Nat) : Task → Nat
  | .one _ => 1
  | .seq es => es.length
  | .alt es => es.length
  | .loop _ none => len + 1
  | .loop _ (some m) => m

theorem effort_calls {K : Nat} (hW : ∀ n e, G n = some e → width e ≤ K) {t s c d} (h : Effort G t s c d) :
    s.length + 1 ≤ K → taskWidth t ≤ K → c ≤ taskParts s.length t * (K + 1) ^ d := by
  have hpos : ∀ d, 1 ≤ (K + 1) ^ d := fun d => Nat.pow_pos (by omega)
  have inside : ∀ {c d p : Nat}, p ≤ K → c ≤ p * (K + 1) ^ d → c + 1 ≤ 1 * (K + 1) ^ (d + 1) := by
    intro c d p hp hc
    have h1 := Nat.mul_le_mul_right ((K + 1) ^ d) hp
    rw [Nat.pow_succ, Nat.mul_add, Nat.mul_one, Nat.one_mul, Nat.mul_comm _ K]
    have := hpos d
    omega
  have both : ∀ {c d c' d' p : Nat}, c ≤ 1 * (K + 1) ^ d → c' ≤ p * (K + 1) ^ d' → c + c' ≤ (p + 1) * (K + 1) ^ max d d' := by
    intro c d c' d' p h1 h2
    have h3 : (K + 1) ^ d ≤ (K + 1) ^ max d d' := Nat.pow_le_pow_right (by omega) (by omega)
    have h4 : (K + 1) ^ d' ≤ (K + 1) ^ max d d' := Nat.pow_le_pow_right (by omega) (by omega)
    have h5 := Nat.mul_le_mul_left p h4
    rw [Nat.add_mul, Nat.one_mul]
    omega
  have first : ∀ {c d p : Nat}, c ≤ 1 * (K + 1) ^ d → 0 < p → c ≤ p * (K + 1) ^ d :=
    fun h1 hp => h1.trans (Nat.mul_le_mul_right _ hp)
  induction h with
  | simple a s => intro _ _; simp only [taskParts]; have := hpos 1; omega
  | missing => intro _ _; simp only [taskParts]; have := hpos 1; omega
  | seq_nil | alt_nil | loop_full => intro _ _; omega
  | and _ ih | or _ ih =>
    intro hK hw
    simp only [taskWidth, width] at hw ih
    exact inside (by simp only [taskParts]; omega) (ih hK (by omega))
  | not _ ih =>
    intro hK hw
    simp only [taskWidth, width] at hw ih
    exact inside (by simp only [taskParts]; omega) (ih hK (by omega))
  | @rep e mn mx s c d _ ih =>
    intro hK hw
    cases mx with
    | none =>
      simp only [taskWidth, width] at hw ih
      exact inside (by simp only [taskParts]; omega) (ih hK hw)
    | some m =>
      simp only [taskWidth, width] at hw ih
      exact inside (by simp only [taskParts]; omega) (ih hK hw)
  | @call n e s c d hg h1 ih =>
    intro hK hw
    exact inside (by simp only [taskParts]; omega) (ih hK (hW n e hg))
  | @seq_more e es s r ns c d c' d' _ hp _ ih ih' =>
    intro hK hw
    have hr := (peg_suffix hp rfl).length_le
    simp only [taskWidth, widths, List.length_cons] at hw ih ih'
    exact both (ih hK (by omega)) (ih' (by omega) (by omega))
  | seq_stop _ hp _ ih =>
    intro hK hw
    simp only [taskWidth, widths, List.length_cons] at hw ih
    exact first (ih hK (by omega)) (by simp [taskParts])
  | alt_more _ hp _ ih ih' =>
    intro hK hw
    simp only [taskWidth, widths, List.length_cons] at hw ih ih'
    exact both (ih hK (by omega)) (ih' (by omega) (by omega))
  | alt_stop _ hp _ ih =>
    intro hK hw
    simp only [taskWidth, widths, List.length_cons] at hw ih
    exact first (ih hK (by omega)) (by simp [taskParts])
  | @loop_more e mx s r ns c d c' d' hm h1 hp h2 ih ih' =>
    intro hK hw
    have hr := peg_suffix hp rfl
    cases mx with
    | none =>
      obtain ⟨o, ho⟩ := effort_ends (Effort.loop_more hm h1 hp h2) 0
      have hlt : r.length < s.length := by
        rcases Nat.lt_or_ge r.length s.length with hlt | hge
        · exact hlt
        · have h4 : r = s := hr.eq_of_length (Nat.le_antisymm hr.length_le hge)
          subst h4
          exact absurd ho (no_idle hp)
      simp only [taskWidth, Option.map_none] at hw ih ih'
      have h5 := both (ih hK hw) (ih' (by omega) hw)
      simp only [taskParts] at h5 ⊢
      exact h5.trans (Nat.mul_le_mul_right _ (by omega))
    | some m =>
      cases m with
      | zero => exact absurd rfl hm
      | succ m =>
        have := hr.length_le
        simp only [taskWidth, Option.map_some, Nat.add_sub_cancel] at hw ih ih'
        exact both (ih hK (by omega)) (ih' (by omega) (by omega))
  | @loop_stop e mx s o c d hm _ hp _ ih =>
    intro hK hw
    cases mx with
    | none =>
      simp only [taskWidth] at hw ih
      exact first (ih hK hw) (by simp [taskParts])
    | some m =>
      have : m ≠ 0 := fun h => hm (by rw [h])
      simp only [taskWidth] at hw ih
      exact first (ih hK (by omega)) (by simp only [taskParts]; omega)

/-! ### what is used so far is used in the end -/

def MWithin (m m' : Meter) : Prop := m.calls ≤ m'.calls ∧ m.depth ≤ m'.depth

theorem MWithin.refl (m : Meter) : MWithin m m := ⟨Nat.le_refl _, Nat.le_refl _⟩

theorem MWithin.enter {m m' : Meter} (h : MWithin m m') : MWithin m.enter m'.enter := by
  obtain ⟨h1, h2⟩ := h
  exact ⟨by simp only [Meter.enter]; omega, by simp only [Meter.enter]; omega⟩

theorem MWithin.first {m m' n : Meter} (h : MWithin m m') : MWithin m (m'.andThen n) := by
  obtain ⟨h1, h2⟩ := h
  exact ⟨by simp only [Meter.andThen]; omega, by simp only [Meter.andThen]; omega⟩

theorem MWithin.second {m n n' : Meter} (h : MWithin n n') : MWithin (m.andThen n) (m.andThen n') := by
  obtain ⟨h1, h2⟩ := h
  exact ⟨by simp only [Meter.andThen]; omega, by simp only [Meter.andThen]; omega⟩

/-- unfinished and within, or finished and the same -/
def Grows {α : Type} (x y : Out Error α × Meter) : Prop := (x.1 = .diverge ∧ MWithin x.2 y.2) ∨ x = y

variable (R : SetOfRules)

theorem meter_grows : ∀ f,
    (∀ st n, Grows (meterRuleName R f st n) (meterRuleName R (f+1) st n)) ∧
    (∀ st e, Grows (meterExpr R f st e) (meterExpr R (f+1) st e)) ∧
    (∀ st es acc, Grows (meterAnd R f st es acc) (meterAnd R (f+1) st es acc)) ∧
    (∀ st es acc, Grows (meterOr R f st es acc) (meterOr R (f+1) st es acc)) ∧
    (∀ e mn mx st k acc, Grows (meterRepeat R f e mn mx st k acc) (meterRepeat R (f+1) e mn mx st k acc)) := by
  have zero : ∀ m, MWithin Meter.zero m := fun m => ⟨Nat.zero_le _, Nat.zero_le _⟩
  intro f
  induction f with
  | zero =>
    refine ⟨?_, ?_, ?_, ?_, ?_⟩ <;> intros <;> left
    · rw [meterRuleName]; exact ⟨rfl, zero _⟩
    · rw [meterExpr]; exact ⟨rfl, zero _⟩
    · rw [meterAnd]; exact ⟨rfl, zero _⟩
    · rw [meterOr]; exact ⟨rfl, zero _⟩
    · rw [meterRepeat]; exact ⟨rfl, zero _⟩
  | succ f ih =>
    obtain ⟨ih1, ih2, ih3, ih4, ih5⟩ := ih
    refine ⟨?_, ?_, ?_, ?_, ?_⟩
    · intro st n
      rw [meterRuleName, meterRuleName]
      cases R.get n with
      | none => exact Or.inr rfl
      | some e =>
        simp only
        rcases ih2 (if st.traceRules = true then st.pushRule (c!"r:" ++ n) else st) e with ⟨h, h'⟩ | h
        · left
          generalize meterExpr R f (if st.traceRules = true then st.pushRule (c!"r:" ++ n) else st) e = x at h h' ⊢
          generalize meterExpr R (f + 1) (if st.traceRules = true then st.pushRule (c!"r:" ++ n) else st) e = y at h' ⊢
          obtain ⟨x, m⟩ := x; simp only at h; subst h
          obtain ⟨y | y | _ | _, m'⟩ := y <;> exact ⟨rfl, h'⟩
        · right; rw [h]
    · intro st e
      cases e with
      | simple a => right; rw [meterExpr, meterExpr]
      | and es =>
        rw [meterExpr, meterExpr]
        rcases ih3 st es [] with ⟨h, h'⟩ | h
        · exact Or.inl ⟨h, h'.enter⟩
        · right; rw [h]
      | or es =>
        rw [meterExpr, meterExpr]
        rcases ih4 st es none with ⟨h, h'⟩ | h
        · exact Or.inl ⟨h, h'.enter⟩
        · right; rw [h]
      | not e =>
        rw [meterExpr, meterExpr]
        rcases ih2 st e with ⟨h, h'⟩ | h
        · left
          generalize meterExpr R f st e = x at h h' ⊢
          generalize meterExpr R (f + 1) st e = y at h' ⊢
          obtain ⟨x, m⟩ := x; simp only at h; subst h
          obtain ⟨y | y | _ | _, m'⟩ := y <;> exact ⟨rfl, h'.enter⟩
        · right; rw [h]
      | rep e mn mx =>
        rw [meterExpr, meterExpr]
        rcases ih5 e mn mx st 0 [] with ⟨h, h'⟩ | h
        · exact Or.inl ⟨h, h'.enter⟩
        · right; rw [h]
      | ruleName n =>
        rw [meterExpr, meterExpr]
        rcases ih1 st n with ⟨h, h'⟩ | h
        · left
          generalize meterRuleName R f st n = x at h h' ⊢
          generalize meterRuleName R (f + 1) st n = y at h' ⊢
          obtain ⟨x, m⟩ := x; simp only at h; subst h
          obtain ⟨y | y | _ | _, m'⟩ := y <;> exact ⟨rfl, h'.enter⟩
        · right; rw [h]
    · intro st es acc
      cases es with
      | nil => right; rw [meterAnd, meterAnd]
      | cons e es =>
        rw [meterAnd, meterAnd]
        rcases ih2 st e with ⟨h, h'⟩ | h
        · left
          generalize meterExpr R f st e = x at h h' ⊢
          generalize meterExpr R (f + 1) st e = y at h' ⊢
          obtain ⟨x, m⟩ := x; simp only at h; subst h
          obtain ⟨y | y | _ | _, m'⟩ := y
          · exact ⟨rfl, h'.first⟩
          all_goals exact ⟨rfl, h'⟩
        · rw [← h]
          rcases meterExpr R f st e with ⟨x | x | _ | _, m⟩
          · rcases ih3 x.1 es (acc ++ x.2) with ⟨h, h'⟩ | h
            · exact Or.inl ⟨h, h'.second⟩
            · right; simp only; rw [h]
          all_goals exact Or.inr rfl
    · intro st es acc
      cases es with
      | nil => right; cases acc <;> rw [meterOr, meterOr]
      | cons e es =>
        rw [meterOr, meterOr]
        rcases ih2 st e with ⟨h, h'⟩ | h
        · left
          generalize meterExpr R f st e = x at h h' ⊢
          generalize meterExpr R (f + 1) st e = y at h' ⊢
          obtain ⟨x, m⟩ := x; simp only at h; subst h
          obtain ⟨y | y | _ | _, m'⟩ := y
          · exact ⟨rfl, h'⟩
          · simp only
            split
            · exact ⟨trivial, h'⟩
            · exact ⟨trivial, h'.first⟩
          all_goals exact ⟨rfl, h'⟩
        · rw [← h]
          rcases meterExpr R f st e with ⟨x | x | _ | _, m⟩
          · exact Or.inr rfl
          · simp only
            split
            · exact Or.inr rfl
            · rcases ih4 st es (deepErr acc x) with ⟨h, h'⟩ | h
              · exact Or.inl ⟨h, h'.second⟩
              · right; rw [h]
          all_goals exact Or.inr rfl
    · intro e mn mx st k acc
      rw [meterRepeat, meterRepeat]
      rcases ih2 st e with ⟨h, h'⟩ | h
      · left
        generalize meterExpr R f st e = x at h h' ⊢
        generalize meterExpr R (f + 1) st e = y at h' ⊢
        obtain ⟨x, m⟩ := x; simp only at h; subst h
        obtain ⟨y | y | _ | _, m'⟩ := y
        · simp only
          split
          · exact ⟨trivial, h'⟩
          · exact ⟨trivial, h'.first⟩
        · simp only
          split
          · split <;> exact ⟨trivial, h'⟩
          · exact ⟨trivial, h'⟩
        all_goals exact ⟨rfl, h'⟩
      · rw [← h]
        rcases meterExpr R f st e with ⟨x | x | _ | _, m⟩
        · simp only
          split
          · exact Or.inr rfl
          · rcases ih5 e mn mx x.1 (k + 1) (acc ++ x.2) with ⟨h, h'⟩ | h
            · exact Or.inl ⟨h, h'.second⟩
            · right; rw [h]
        all_goals exact Or.inr rfl

theorem meter_within {f g : Nat} (h : f ≤ g) (st n) : MWithin (meterRuleName R f st n).2 (meterRuleName R g st n).2 := by
  induction h with
  | refl => exact .refl _
  | @step g _ ih =>
    rcases (meter_grows R g).1 st n with ⟨_, h⟩ | h
    · exact ⟨ih.1.trans h.1, ih.2.trans h.2⟩
    · rw [← h]; exact ih

/-! ### corrected bounds -/

mutual
theorem width_effective : ∀ e, width (effective e) ≤ width e
  | .simple a => by rw [effective]
  | .and es => by
    have := widths_effective es
    rw [effective, width, width, show (effectives es).length = es.length from this.2]
    omega
  | .or es => by
    have := widths_effective es
    rw [effective, width, width, show (effectives es).length = es.length from this.2]
    omega
  | .not e => by have := width_effective e; rw [effective, width, width]; omega
  | .rep e mn none => by have := width_effective e; rw [effective, width, width]; omega
  | .rep e mn (some 0) => by have := width_effective e; rw [effective, width, width]; omega
  | .rep e mn (some (m + 1)) => by have := width_effective e; rw [effective, width, width]; omega
  | .ruleName n => by rw [effective]
theorem widths_effective : ∀ es, widths (effectives es) ≤ widths es ∧ (effectives es).length = es.length
  | [] => by rw [effectives]; exact ⟨Nat.le_refl _, rfl⟩
  | e :: es => by
    have h1 := width_effective e
    have h2 := widths_effective es
    rw [effectives, widths, widths, List.length_cons, List.length_cons, h2.2]
    exact ⟨by omega, rfl⟩
end

mutual
theorem height_effective : ∀ e, height (effective e) = height e
  | .simple a => by rw [effective]
  | .and es => by rw [effective, height, height, heights_effective es]
  | .or es => by rw [effective, height, height, heights_effective es]
  | .not e => by rw [effective, height, height, height_effective e]
  | .rep e mn none => by rw [effective, height, height, height_effective e]
  | .rep e mn (some 0) => by rw [effective, height, height, height_effective e]
  | .rep e mn (some (m + 1)) => by rw [effective, height, height, height_effective e]
  | .ruleName n => by rw [effective]
theorem heights_effective : ∀ es, heights (effectives es) = heights es
  | [] => by rw [effectives]
  | e :: es => by rw [effectives, heights, heights, height_effective e, heights_effective es]
end

end DP
