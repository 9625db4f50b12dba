/-
C75: rules that accept the histories of a machine with two counters.
-/
import Verif.Spec.Counter
import Verif.Proofs.Does
import Verif.Props.Combine

namespace DP
open Spec

/-! ### The rules -/

def chr (c : Char) : Expr := .simple (.literal [c])
def chrs (n : Nat) (c : Char) : Expr := .simple (.literal (List.replicate n c))
def many (c : Char) : Expr := .rep (chr c) 0 none
def look (e : Expr) : Expr := .not (.not e)

/-- The next moment is at instruction `j`, and its counters are those of this moment, less `pa` and `pb` and plus `qa` and `qb`:
`!!('a'* 'b'* '#' 'sss' !'s') !!('a' as 'a' !'a') !!('a'* 'b' bs 'b' !'b')` -/
def nextIs (j pa qa pb qb : Nat) : Expr :=
  .and [look (.and [many 'a', many 'b', chr '#', chrs (j + 1) 's', .not (chr 's')]),
    look (.and [chrs pa 'a', .ruleName c!"as", chrs qa 'a', .not (chr 'a')]),
    look (.and [many 'a', chrs pb 'b', .ruleName c!"bs", chrs qb 'b', .not (chr 'b')])]

/-- the next moment is what the instruction makes of this one -/
def instrExpr : Instr → Expr
  | .inc false j => nextIs j 0 1 0 0
  | .inc true j => nextIs j 0 0 0 1
  | .dec false j z => .or [nextIs j 1 0 0 0, .and [.not (chr 'a'), nextIs z 0 0 0 0]]
  | .dec true j z => .or [nextIs j 0 0 1 0, .and [.not (.and [many 'a', chr 'b']), nextIs z 0 0 0 0]]

/-- a moment at instruction `i` and the following ones -/
def momentExpr (x : Instr × Nat) : Expr :=
  .and [chrs (x.2 + 1) 's', .not (chr 's'), instrExpr x.1, many 'a', many 'b', chr '#', .ruleName c!"run"]

/-- the last moment -/
def lastExpr (k : Nat) : Expr := .and [chrs (k + 1) 's', many 's', many 'a', many 'b', chr '#', .not (.simple .dot)]

/-- the history begins with `a` in the first counter; `as` and `bs` compare the counters of two moments -/
def machineRules (P : List Instr) (a : Nat) (tail : List Expr) : SetOfRules := ⟨[
  (c!"main", .and (look (.simple (.literal (Moment.text ⟨0, a, 0⟩))) :: .ruleName c!"run" :: tail)),
  (c!"run", .or (P.zipIdx.map momentExpr ++ [lastExpr P.length])),
  (c!"as", .or [.and [chr 'a', .ruleName c!"as", chr 'a'], .and [many 'b', chr '#', many 's']]),
  (c!"bs", .or [.and [chr 'b', .ruleName c!"bs", chr 'b'], .and [chr '#', many 's', many 'a']]),
  (c!"loop", .ruleName c!"loop")]⟩

/-- the rules accept the histories -/
def historyRules (P : List Instr) (a : Nat) : SetOfRules := machineRules P a []
/-- the rules do not return on the histories -/
def trapRules (P : List Instr) (a : Nat) : SetOfRules := machineRules P a [.ruleName c!"loop"]

section
variable {G : Str → Option Expr}
  (ga : G c!"as" = some (.or [.and [chr 'a', .ruleName c!"as", chr 'a'], .and [many 'b', chr '#', many 's']]))
  (gb : G c!"bs" = some (.or [.and [chr 'b', .ruleName c!"bs", chr 'b'], .and [chr '#', many 's', many 'a']]))

include ga in
theorem does_as (s : Str) : Does G (.ruleName c!"as") s ((past 'b' (past 'a' s)).head? = some '#' ∧ lead 'a' s ≤ lead 'a' (past 's' (past 'b' (past 'a' s)).tail))
    (List.replicate (lead 'a' (past 's' (past 'b' (past 'a' s)).tail) - lead 'a' s) 'a' ++ past 'a' (past 's' (past 'b' (past 'a' s)).tail)) := by
  refine does_mirror ga ?_ (fun t => ?_)
  · exact (does_and (does_star 'b' _) fun _ => does_and (does_lit_one '#' _) fun _ => does_and (does_star 's' _) fun _ => does_nil _).congr (by simp)
  · refine .and_tail_fail (r := 'a' :: t) (ns := []) (.rep_stop (by simp) ((does_lit_one 'b' _).2 (by simp))) (.and_fail ((does_lit_one '#' _).2 (by simp)))

include gb in
theorem does_bs (s : Str) : Does G (.ruleName c!"bs") s ((past 'b' s).head? = some '#' ∧ lead 'b' s ≤ lead 'b' (past 'a' (past 's' (past 'b' s).tail)))
    (List.replicate (lead 'b' (past 'a' (past 's' (past 'b' s).tail)) - lead 'b' s) 'b' ++ past 'b' (past 'a' (past 's' (past 'b' s).tail))) := by
  refine does_mirror gb ?_ (fun t => ?_)
  · exact (does_and (does_lit_one '#' _) fun _ => does_and (does_star 's' _) fun _ => does_and (does_star 'a' _) fun _ => does_nil _).congr (by simp)
  · exact .and_fail ((does_lit_one '#' _).2 (by simp))

theorem lead_again {c : Char} (n : Nat) (s : Str) : lead c (List.replicate n c ++ past c s) = n := lead_replicate (past_head c s) n
theorem past_again {c : Char} (n : Nat) (s : Str) : past c (List.replicate n c ++ past c s) = past c s := past_replicate (past_head c s) n

include ga gb in
theorem does_next (j pa qa pb qb : Nat) (u : Str) : Does G (nextIs j pa qa pb qb) u
    ((past 'b' (past 'a' u)).head? = some '#' ∧ lead 's' (past 'b' (past 'a' u)).tail = j + 1 ∧
      pa ≤ lead 'a' u ∧ lead 'a' (past 's' (past 'b' (past 'a' u)).tail) = lead 'a' u - pa + qa ∧
      pb ≤ lead 'b' (past 'a' u) ∧ lead 'b' (past 'a' (past 's' (past 'b' (past 'a' u)).tail)) = lead 'b' (past 'a' u) - pb + qb) u := by
  have h1 : Does G (.and [many 'a', many 'b', chr '#', chrs (j + 1) 's', .not (chr 's')]) u
      (True ∧ True ∧ (past 'b' (past 'a' u)).head? = some '#' ∧ lead 's' (past 'b' (past 'a' u)).tail = j + 1 ∧ True) _ :=
    does_and (does_star 'a' u) fun _ => does_and (does_star 'b' _) fun _ => does_and (does_lit_one '#' _) fun _ => does_exactly (j + 1) fun _ => does_nil _
  have h2 := does_and (does_lits (G := G) 'a' pa u) fun _ => does_and (does_as ga _) fun _ => does_exactly (c := 'a') qa fun _ => does_nil _
  have h3 := does_and (does_star (G := G) 'a' u) fun _ => does_and (does_lits 'b' pb _) fun _ => does_and (does_bs gb _) fun _ => does_exactly (c := 'b') qb fun _ => does_nil _
  refine (does_and (does_look h1) fun _ => does_and (does_look h2) fun _ => does_and (does_look h3) fun _ => does_nil _).congr ?_
  simp only [lead_again, past_again, true_and, and_true]
  constructor
  · rintro ⟨h1, h2, h3, h4, h5, h6⟩
    exact ⟨⟨h1, h2⟩, ⟨h3, ⟨h1, by omega⟩, by omega⟩, h5, ⟨h1, by omega⟩, by omega⟩
  · rintro ⟨⟨h1, h2⟩, ⟨h3, ⟨_, h4⟩, h5⟩, h6, ⟨_, h7⟩, h8⟩
    exact ⟨h1, h2, h3, by omega, h6, by omega⟩

/-- the text begins with a moment, up to its "#" -/
def Begins (m : Moment) (t : Str) : Prop :=
  lead 's' t = m.at_ + 1 ∧ lead 'a' (past 's' t) = m.a ∧ lead 'b' (past 'a' (past 's' t)) = m.b

include ga gb in
theorem does_instr {P : List Instr} {i : Nat} {ins : Instr} (hi : P[i]? = some ins) (u : Str) : Does G (instrExpr ins) u
    ((past 'b' (past 'a' u)).head? = some '#' ∧ ∃ m, Ticks P ⟨i, lead 'a' u, lead 'b' (past 'a' u)⟩ m ∧ Begins m (past 'b' (past 'a' u)).tail) u := by
  cases ins with
  | inc second j =>
    cases second with
    | false =>
      refine (does_next ga gb j 0 1 0 0 u).congr ⟨?_, ?_⟩
      · rintro ⟨h1, m, h2, h3, h4, h5⟩
        generalize hx : lead 'a' u = x at *
        generalize hy : lead 'b' (past 'a' u) = y at *
        cases h2 <;> rename_i h6 <;> rw [hi] at h6 <;> cases h6
        exact ⟨h1, h3, by omega, h4, by omega, h5⟩
      · rintro ⟨h1, h2, _, h3, _, h4⟩
        exact ⟨h1, _, .incA hi, h2, by simpa using h3, by simpa using h4⟩
    | true =>
      refine (does_next ga gb j 0 0 0 1 u).congr ⟨?_, ?_⟩
      · rintro ⟨h1, m, h2, h3, h4, h5⟩
        generalize hx : lead 'a' u = x at *
        generalize hy : lead 'b' (past 'a' u) = y at *
        cases h2 <;> rename_i h6 <;> rw [hi] at h6 <;> cases h6
        exact ⟨h1, h3, by omega, h4, by omega, h5⟩
      · rintro ⟨h1, h2, _, h3, _, h4⟩
        exact ⟨h1, _, .incB hi, h2, by simpa using h3, by simpa using h4⟩
  | dec second j z =>
    cases second with
    | false =>
      have h0 : (u.head? = some 'a') ↔ 1 ≤ lead 'a' u := by
        cases u with
        | nil => simp [lead]
        | cons c u =>
          by_cases hc : c = 'a'
          · subst hc; rw [lead_cons]; simp
          · rw [lead_other hc]; simp [hc]
      have h := does_or (does_next ga gb j 1 0 0 0 u) (does_or ((does_and (does_not (does_lit_one 'a' u)) fun _ =>
        does_and (does_next ga gb z 0 0 0 0 u) fun _ => does_nil u)) (does_or_nil u u))
      refine h.congr ⟨?_, ?_⟩
      · rintro ⟨h1, m, h2, h3, h4, h5⟩
        generalize hx : lead 'a' u = x at *
        generalize hy : lead 'b' (past 'a' u) = y at *
        cases h2 <;> rename_i h6 <;> rw [hi] at h6 <;> cases h6
        · exact .inl ⟨h1, h3, by omega, h4, by omega, h5⟩
        · exact .inr (.inl ⟨fun h => by have := h0.1 h; omega, ⟨h1, h3, by omega, h4, by omega, h5⟩, trivial⟩)
      · rintro (⟨h1, h2, h3, h4, _, h5⟩ | ⟨h6, ⟨h1, h2, _, h4, _, h5⟩, _⟩ | h)
        · obtain ⟨x, hx⟩ : ∃ x, lead 'a' u = x + 1 := ⟨lead 'a' u - 1, by omega⟩
          rw [hx]
          exact ⟨h1, _, .decA hi, h2, by rw [h4, hx]; rfl, h5⟩
        · have hx : lead 'a' u = 0 := by
            by_contra hx
            exact h6 (h0.2 (by omega))
          rw [hx]
          exact ⟨h1, _, .zeroA hi, h2, by rw [h4, hx], h5⟩
        · exact h.elim
    | true =>
      have h0 : ((past 'a' u).head? = some 'b') ↔ 1 ≤ lead 'b' (past 'a' u) := by
        cases past 'a' u with
        | nil => simp [lead]
        | cons c u =>
          by_cases hc : c = 'b'
          · subst hc; rw [lead_cons]; simp
          · rw [lead_other hc]; simp [hc]
      have h := does_or (does_next ga gb j 0 0 1 0 u) (does_or ((does_and (does_not (does_and (does_star 'a' u) fun _ => does_and (does_lit_one 'b' _) fun _ =>
        does_nil _)) fun _ => does_and (does_next ga gb z 0 0 0 0 u) fun _ => does_nil u)) (does_or_nil u u))
      refine h.congr ⟨?_, ?_⟩
      · rintro ⟨h1, m, h2, h3, h4, h5⟩
        generalize hx : lead 'a' u = x at *
        generalize hy : lead 'b' (past 'a' u) = y at *
        cases h2 <;> rename_i h6 <;> rw [hi] at h6 <;> cases h6
        · exact .inl ⟨h1, h3, by omega, h4, by omega, h5⟩
        · exact .inr (.inl ⟨fun h => by have := h0.1 h.2.1; omega, ⟨h1, h3, by omega, h4, by omega, h5⟩, trivial⟩)
      · rintro (⟨h1, h2, _, h4, h3, h5⟩ | ⟨h6, ⟨h1, h2, _, h4, _, h5⟩, _⟩ | h)
        · obtain ⟨x, hx⟩ : ∃ x, lead 'b' (past 'a' u) = x + 1 := ⟨lead 'b' (past 'a' u) - 1, by omega⟩
          rw [hx]
          exact ⟨h1, _, .decB hi, h2, h4, by rw [h5, hx]; rfl⟩
        · have hx : lead 'b' (past 'a' u) = 0 := by
            by_contra hx
            exact h6 ⟨trivial, h0.2 (by omega), trivial⟩
          rw [hx]
          exact ⟨h1, _, .zeroB hi, h2, h4, by rw [h5, hx]⟩
        · exact h.elim

end

/-! ### Texts of moments -/

theorem text_begins (m : Moment) (r : Str) : Begins m (m.text ++ r) ∧ past 'b' (past 'a' (past 's' (m.text ++ r))) = '#' :: r := by
  obtain ⟨i, a, b⟩ := m
  have e : (⟨i, a, b⟩ : Moment).text ++ r = List.replicate (i + 1) 's' ++ (List.replicate a 'a' ++ (List.replicate b 'b' ++ '#' :: r)) := by
    simp [Moment.text]
  have hb : (List.replicate b 'b' ++ '#' :: r).head? ≠ some 'a' := by cases b <;> simp [List.replicate_succ]
  have ha : (List.replicate a 'a' ++ (List.replicate b 'b' ++ '#' :: r)).head? ≠ some 's' := by
    cases a <;> cases b <;> simp [List.replicate_succ]
  have hc : ('#' :: r).head? ≠ some 'b' := by simp
  rw [Begins, e, past_replicate ha, past_replicate hb, past_replicate hc, lead_replicate ha, lead_replicate hb, lead_replicate hc]
  simp

theorem begins_text {t : Str} (h1 : 1 ≤ lead 's' t) (h2 : (past 'b' (past 'a' (past 's' t))).head? = some '#') :
    t = (⟨lead 's' t - 1, lead 'a' (past 's' t), lead 'b' (past 'a' (past 's' t))⟩ : Moment).text ++ (past 'b' (past 'a' (past 's' t))).tail := by
  conv => lhs; rw [lead_past 's' t, lead_past 'a' (past 's' t), lead_past 'b' (past 'a' (past 's' t))]
  have : past 'b' (past 'a' (past 's' t)) = '#' :: (past 'b' (past 'a' (past 's' t))).tail := by
    cases h : past 'b' (past 'a' (past 's' t)) with
    | nil => rw [h] at h2; cases h2
    | cons c r =>
      rw [h] at h2
      obtain rfl : c = '#' := by simpa using h2
      rfl
  rw [this, Moment.text, Nat.sub_add_cancel h1]
  simp

theorem history_begins {P m t} (h : History P m t) : ∃ r, t = m.text ++ r := by
  cases h with
  | last _ => exact ⟨[], by simp⟩
  | step _ _ => exact ⟨_, rfl⟩

theorem begins_det {m m' : Moment} {t : Str} (h : Begins m t) (h' : Begins m' t) : m = m' := by
  obtain ⟨i, a, b⟩ := m
  obtain ⟨i', a', b'⟩ := m'
  obtain ⟨h1, h2, h3⟩ := h
  obtain ⟨h4, h5, h6⟩ := h'
  simp only at *
  have : i = i' := by omega
  subst this
  rw [← h2, ← h3, ← h5, ← h6]

/-! ### The rule `run` -/

section
variable {P : List Instr} {G : Str → Option Expr}
  (ga : G c!"as" = some (.or [.and [chr 'a', .ruleName c!"as", chr 'a'], .and [many 'b', chr '#', many 's']]))
  (gb : G c!"bs" = some (.or [.and [chr 'b', .ruleName c!"bs", chr 'b'], .and [chr '#', many 's', many 'a']]))
  (gr : G c!"run" = some (.or (P.zipIdx.map momentExpr ++ [lastExpr P.length])))

include ga gb in
theorem does_moment {i : Nat} {ins : Instr} (hi : P[i]? = some ins) (s : Str)
    (hr : ∀ t : Str, t.length < s.length → Does G (.ruleName c!"run") t (∃ m, History P m t) []) : Does G (momentExpr (ins, i)) s
    (lead 's' s = i + 1 ∧ (past 'b' (past 'a' (past 's' s))).head? = some '#' ∧
      (∃ m, Ticks P ⟨i, lead 'a' (past 's' s), lead 'b' (past 'a' (past 's' s))⟩ m ∧ Begins m (past 'b' (past 'a' (past 's' s))).tail) ∧
      ∃ m, History P m (past 'b' (past 'a' (past 's' s))).tail) [] := by
  have h := does_exactly (G := G) (c := 's') (s := s) (i + 1) fun _ => does_and (does_instr ga gb hi _) fun _ => does_and (does_star 'a' _) fun _ =>
    does_and (does_star 'b' _) fun _ => does_and (does_lit_one '#' _) fun hh => does_and (hr _ ?_) fun _ => does_nil []
  · exact h.congr (by simp only [true_and, and_true]; exact ⟨fun ⟨h1, h2, h3, h4⟩ => ⟨h1, ⟨h2, h3⟩, h2, h4⟩, fun ⟨h1, ⟨h2, h3⟩, _, h4⟩ => ⟨h1, h2, h3, h4⟩⟩)
  · have h1 := past_length 's' s
    have h2 := past_length 'a' (past 's' s)
    have h3 := past_length 'b' (past 'a' (past 's' s))
    cases h4 : past 'b' (past 'a' (past 's' s)) with
    | nil => rw [h4] at hh; cases hh
    | cons c t =>
      rw [h4] at h3
      simp only [List.length_cons, List.tail_cons] at *
      omega

theorem does_last (k : Nat) (s : Str) : Does G (lastExpr k) s
    (k + 1 ≤ lead 's' s ∧ (past 'b' (past 'a' (past 's' s))).head? = some '#' ∧ (past 'b' (past 'a' (past 's' s))).tail = []) [] := by
  have h := does_and (does_lits (G := G) 's' (k + 1) s) fun _ => does_and (does_star 's' _) fun _ => does_and (does_star 'a' _) fun _ =>
    does_and (does_star 'b' _) fun _ => does_and (does_lit_one '#' _) fun _ => does_and (does_not (does_dot _)) fun _ => does_nil _
  simp only [past_again, true_and, and_true, not_not] at h
  exact h.leaves fun h => h.2.2

include ga gb gr in
theorem does_run : ∀ (k : Nat) (s : Str), s.length < k → Does G (.ruleName c!"run") s (∃ m, History P m s) [] := by
  intro k
  induction k with
  | zero => intro s h; exact absurd h (Nat.not_lt_zero _)
  | succ k ih =>
    intro s hs
    have hm : ∀ x ∈ P.zipIdx, P[x.2]? = some x.1 := fun x hx => List.mem_zipIdx_iff_getElem?.1 hx
    refine (does_call gr (does_or_map (fun x hx => does_moment ga gb (hm x hx) s fun t ht => ih t (by omega)) (does_or (does_last P.length s) (does_or_nil s [])))).congr ⟨?_, ?_⟩
    · rintro ⟨m, h⟩
      cases h with
      | last h =>
        right; left
        obtain ⟨⟨h1, _, _⟩, h4⟩ := text_begins m []
        rw [List.append_nil] at h1 h4
        unfold Halted at h
        rw [h4]
        exact ⟨by omega, rfl, rfl⟩
      | @step m m' t h h' =>
        left
        obtain ⟨i, a, b⟩ := m
        obtain ⟨ins, hi⟩ : ∃ ins, P[i]? = some ins := by cases h <;> exact ⟨_, by assumption⟩
        obtain ⟨⟨h1, h2, h3⟩, h4⟩ := text_begins ⟨i, a, b⟩ t
        refine ⟨(ins, i), List.mem_zipIdx_iff_getElem?.2 hi, h1, ?_⟩
        obtain ⟨r, hr⟩ := history_begins h'
        have hb := (text_begins m' r).1
        rw [← hr] at hb
        rw [h2, h3, h4]
        exact ⟨rfl, ⟨m', h, hb⟩, m', h'⟩
    · rintro (⟨⟨ins, i⟩, hx, h1, h2, ⟨m, h3, h4⟩, m', h5⟩ | ⟨h1, h2, h3⟩ | h)
      · have e := begins_text (t := s) (by omega) h2
        obtain ⟨r, hr⟩ := history_begins h5
        have hb := (text_begins m' r).1
        rw [← hr] at hb
        have := begins_det h4 hb
        subst this
        rw [show lead 's' s - 1 = i from by simp only at h1; omega] at e
        rw [e]
        exact ⟨_, .step h3 h5⟩
      · have e := begins_text (t := s) (by omega) h2
        rw [h3, List.append_nil] at e
        rw [e]
        refine ⟨_, .last ?_⟩
        show P.length ≤ lead 's' s - 1
        omega
      · exact h.elim

end

/-! ### C75 -/

theorem history_starts {P m s} (h : History P m s) (a : Nat) : (Moment.text ⟨0, a, 0⟩ <+: s) ↔ m = ⟨0, a, 0⟩ := by
  obtain ⟨r, rfl⟩ := history_begins h
  have hb := (text_begins m r).1
  constructor
  · rintro ⟨t, ht⟩
    have := (text_begins ⟨0, a, 0⟩ t).1
    rw [ht] at this
    exact begins_det hb this
  · rintro rfl
    exact ⟨r, rfl⟩

theorem boundsOK_iff : (∀ a, BoundsOK (.simple a)) ∧ (∀ n, BoundsOK (.ruleName n)) ∧ (∀ es, BoundsOK (.and es) ↔ ∀ e ∈ es, BoundsOK e) ∧
    (∀ es, BoundsOK (.or es) ↔ ∀ e ∈ es, BoundsOK e) ∧ (∀ e, BoundsOK (.not e) ↔ BoundsOK e) ∧ ∀ e mn, BoundsOK (.rep e mn none) ↔ BoundsOK e :=
  ⟨.simple, .ruleName, fun _ => ⟨fun h => by cases h; assumption, .and⟩, fun _ => ⟨fun h => by cases h; assumption, .or⟩,
    fun _ => ⟨fun h => by cases h; assumption, .not⟩, fun _ _ => ⟨fun h => by cases h; assumption, fun h => .rep h (by simp)⟩⟩

theorem nextIs_bounds (j pa qa pb qb) : BoundsOK (nextIs j pa qa pb qb) := by
  obtain ⟨h1, h2, h3, h4, h5, h6⟩ := boundsOK_iff
  simp [nextIs, look, many, chr, chrs, h1, h2, h3, h5, h6]

theorem instr_bounds (i : Instr) : BoundsOK (instrExpr i) := by
  obtain ⟨h1, h2, h3, h4, h5, h6⟩ := boundsOK_iff
  rcases i with ⟨_ | _, j⟩ | ⟨_ | _, j, z⟩ <;> simp [instrExpr, nextIs_bounds, many, chr, h1, h3, h4, h5, h6]

theorem machine_bounds (P : List Instr) (a : Nat) {tail : List Expr} (ht : ∀ e ∈ tail, BoundsOK e) : RulesBoundsOK (machineRules P a tail) := by
  obtain ⟨h1, h2, h3, h4, h5, h6⟩ := boundsOK_iff
  intro ne h
  simp only [machineRules, List.mem_cons, List.not_mem_nil, or_false] at h
  rcases h with rfl | rfl | rfl | rfl | rfl
  · simp [look, h1, h2, h3, h5]
    exact ht
  · simp only [h4, List.mem_append, List.mem_map, List.mem_singleton]
    rintro e (⟨x, _, rfl⟩ | rfl)
    · simp [momentExpr, instr_bounds, many, chr, chrs, h1, h2, h3, h5, h6]
    · simp [lastExpr, many, chr, chrs, h1, h3, h5, h6]
  · simp [many, chr, h1, h2, h3, h4, h6]
  · simp [many, chr, h1, h2, h3, h4, h6]
  · simp [h2]

theorem does_lit {G} (l s : Str) : Does G (.simple (.literal l)) s (l <+: s) (s.drop l.length) := by
  constructor
  · rintro ⟨t, rfl⟩
    rw [List.drop_left]
    exact ⟨_, .lit_ok l t⟩
  · intro h
    exact .lit_fail _ _ h

theorem machine_front (P : List Instr) (a : Nat) {tail : List Expr} (ht : ∀ e ∈ tail, BoundsOK e) (s : Str) :
    Does (denotes (machineRules P a tail)) (.and [look (.simple (.literal (Moment.text ⟨0, a, 0⟩))), .ruleName c!"run"]) s (History P ⟨0, a, 0⟩ s) [] := by
  have hd := denotes_of_boundsOK (machine_bounds P a ht)
  have hr := does_run (G := denotes (machineRules P a tail)) (P := P) (by rw [hd]; rfl) (by rw [hd]; rfl) (by rw [hd]; rfl) (s.length + 1) s (Nat.lt_succ_self _)
  refine (does_and (does_look (does_lit (Moment.text ⟨0, a, 0⟩) s)) fun _ => does_and hr fun _ => does_nil _).congr ?_
  constructor
  · intro h; exact ⟨(history_starts h a).2 rfl, ⟨_, h⟩, trivial⟩
  · rintro ⟨h1, ⟨m, h2⟩, _⟩
    rwa [(history_starts h2 a).1 h1] at h2

theorem history_main (P : List Instr) (a : Nat) (s : Str) : Does (denotes (historyRules P a)) (.ruleName c!"main") s (History P ⟨0, a, 0⟩ s) [] :=
  does_call (by unfold historyRules; rw [denotes_of_boundsOK (machine_bounds P a (by simp))]; rfl) (machine_front P a (by simp) s)

theorem history_ascii {P m s} (h : History P m s) : Ascii s := by
  have ht : ∀ m : Moment, Ascii m.text := by
    intro m c hc
    simp only [Moment.text, List.mem_append, List.mem_replicate, List.mem_singleton] at hc
    rcases hc with ⟨_, rfl⟩ | ⟨_, rfl⟩ | ⟨_, rfl⟩ | rfl <;> decide
  induction h with
  | last _ => exact ht _
  | step _ _ ih =>
    intro c hc
    rcases List.mem_append.1 hc with hc | hc
    · exact ht _ c hc
    · exact ih c hc

theorem halts_iff_history (P : List Instr) (m : Moment) : HaltsFrom P m ↔ ∃ s, History P m s := by
  constructor
  · intro h
    induction h with
    | now h => exact ⟨_, .last h⟩
    | later h _ ih => obtain ⟨s, hs⟩ := ih; exact ⟨_, .step h hs⟩
  · rintro ⟨s, h⟩
    induction h with
    | last h => exact .now h
    | step h _ ih => exact .later h ih

/-- **C75**: the rules made for a machine with two counters accept exactly the text of its history, when it halts. -/
theorem C75_histories (P : List Instr) (a : Nat) (s : Str) : (∃ t, parse s (historyRules P a) = .ok t) ↔ History P ⟨0, a, 0⟩ s := by
  constructor
  · rintro ⟨t, h⟩
    have ha := C17_ok_only_on_ascii h
    obtain ⟨ns, h⟩ := (accepted_iff ha).1 ⟨t, h⟩
    by_contra hn
    cases peg_det h ((history_main P a s).2 hn)
  · intro h
    exact (accepted_iff (history_ascii h)).2 ((history_main P a s).1 h)

/-- **C75**: whether a set of rules accepts any text at all is as hard as the halting problem of machines with two counters: from a machine one
computes rules that accept some text if and only if the machine halts. With these rules `parse` returns on every ASCII text. -/
theorem C75_empty (P : List Instr) (a : Nat) : ((∃ s t, parse s (historyRules P a) = .ok t) ↔ HaltsFrom P ⟨0, a, 0⟩) ∧ ∀ s, Ascii s → parse s (historyRules P a) ≠ .diverge := by
  constructor
  · rw [halts_iff_history]
    exact exists_congr (C75_histories P a)
  · intro s ha
    rw [returns_iff ha]
    by_cases h : History P ⟨0, a, 0⟩ s
    · obtain ⟨ns, h⟩ := (history_main P a s).1 h
      exact ⟨_, h⟩
    · exact ⟨_, (history_main P a s).2 h⟩

/-- counts up, and down again -/
example : ∃ t, parse c!"s#ssa#sss#" (historyRules [.inc false 1, .dec false 2 0] 0) = .ok t :=
  (C75_histories _ _ _).2 (.step (.incA rfl) (.step (.decA rfl) (.last (Nat.le_refl 2))))

/-- "ss#" is not the next moment -/
example : ¬ ∃ t, parse c!"s#ss#sss#" (historyRules [.inc false 1, .dec false 2 0] 0) = .ok t := by
  rw [C75_histories]
  intro h
  generalize hs : c!"s#ss#sss#" = s at h
  cases h with
  | last h => simp [Halted] at h
  | step h h' =>
    cases h with
    | incA h =>
      cases h
      obtain ⟨r, rfl⟩ := history_begins h'
      simp [Moment.text] at hs
    | incB h => cases h
    | zeroA h => cases h
    | zeroB h => cases h

/-- counts for ever -/
theorem exCounts : ∀ a, ¬ HaltsFrom [.inc false 0] ⟨0, a, 0⟩ := by
  have : ∀ m, HaltsFrom [.inc false 0] m → m.at_ ≠ 0 := by
    intro m h
    induction h with
    | @now m h => intro h0; rw [Halted, h0] at h; simp at h
    | @later m m' h _ ih =>
      intro h0
      obtain ⟨i, a, b⟩ := m
      simp only at h0
      subst h0
      cases h with
      | incA h => cases h; exact ih rfl
      | incB h => cases h
      | decA h => cases h
      | decB h => cases h
      | zeroA h => cases h
      | zeroB h => cases h
  exact fun a h => this _ h rfl

theorem trap_main (P : List Instr) (a : Nat) (s : Str) :
    (History P ⟨0, a, 0⟩ s → ∀ o, ¬ Peg (denotes (trapRules P a)) (.ruleName c!"main") s o) ∧
    (¬ History P ⟨0, a, 0⟩ s → Peg (denotes (trapRules P a)) (.ruleName c!"main") s .fail) := by
  have hb : ∀ e ∈ [Expr.ruleName c!"loop"], BoundsOK e := by simpa using BoundsOK.ruleName _
  have hd := denotes_of_boundsOK (machine_bounds P a hb)
  have gm : denotes (trapRules P a) c!"main" = some (.and [look (.simple (.literal (Moment.text ⟨0, a, 0⟩))), .ruleName c!"run", .ruleName c!"loop"]) := by
    unfold trapRules; rw [hd]; rfl
  have gl : denotes (trapRules P a) c!"loop" = some (.ruleName c!"loop") := by
    unfold trapRules; rw [hd]; rfl
  have hf := machine_front P a hb s
  change Does (denotes (trapRules P a)) _ _ _ _ at hf
  have noloop : ∀ e s o, Peg (denotes (trapRules P a)) e s o → e ≠ .ruleName c!"loop" := by
    intro e s o h
    induction h with
    | call_ok hg _ ih => rintro he; cases he; rw [gl] at hg; cases hg; exact ih rfl
    | call_fail hg _ ih => rintro he; cases he; rw [gl] at hg; cases hg; exact ih rfl
    | call_crit hg _ ih => rintro he; cases he; rw [gl] at hg; cases hg; exact ih rfl
    | call_missing hg => rintro he; cases he; rw [gl] at hg; cases hg
    | _ => intro he; cases he
  constructor
  · intro h o ho
    obtain ⟨ns, h1⟩ := hf.1 h
    obtain ⟨q, n1, n2, h2, h3, _⟩ := inv_and h1
    obtain ⟨q', n3, n4, h4, h5, _⟩ := inv_and h3
    have body : ∃ o, Peg (denotes (trapRules P a)) (.and [look (.simple (.literal (Moment.text ⟨0, a, 0⟩))), .ruleName c!"run", .ruleName c!"loop"]) s o := by
      cases ho with
      | call_ok hg h => rw [gm] at hg; cases hg; exact ⟨_, h⟩
      | call_fail hg h => rw [gm] at hg; cases hg; exact ⟨_, h⟩
      | call_crit hg h => rw [gm] at hg; cases hg; exact ⟨_, h⟩
      | call_missing hg => rw [gm] at hg; cases hg
    obtain ⟨o, ho⟩ := body
    have last : ∃ s o, Peg (denotes (trapRules P a)) (.and [.ruleName c!"loop"]) s o := by
      have step2 : ∃ s' o, Peg (denotes (trapRules P a)) (.and [.ruleName c!"run", .ruleName c!"loop"]) s' o ∧ s' = q := by
        cases ho with
        | and_ok h _ => cases peg_det h h2; exact ⟨_, _, by assumption, rfl⟩
        | and_fail h => cases peg_det h h2
        | and_crit h => cases peg_det h h2
        | and_tail_fail h _ => cases peg_det h h2; exact ⟨_, _, by assumption, rfl⟩
        | and_tail_crit h _ => cases peg_det h h2; exact ⟨_, _, by assumption, rfl⟩
      obtain ⟨_, o, ho, rfl⟩ := step2
      cases ho with
      | and_ok h _ => exact ⟨_, _, by assumption⟩
      | and_fail h => cases peg_det h h4
      | and_crit h => cases peg_det h h4
      | and_tail_fail h _ => exact ⟨_, _, by assumption⟩
      | and_tail_crit h _ => exact ⟨_, _, by assumption⟩
    obtain ⟨s', o, h⟩ := last
    cases h with
    | and_ok h _ => exact noloop _ _ _ h rfl
    | and_fail h => exact noloop _ _ _ h rfl
    | and_crit h => exact noloop _ _ _ h rfl
    | and_tail_fail h _ => exact noloop _ _ _ h rfl
    | and_tail_crit h _ => exact noloop _ _ _ h rfl
  · intro h
    refine .call_fail gm ?_
    have h1 := hf.2 h
    cases h1 with
    | and_fail h => exact .and_fail h
    | and_tail_fail h h' =>
      cases h' with
      | and_fail h'' => exact .and_tail_fail h (.and_fail h'')
      | and_tail_fail _ h'' => cases h''

/-- **C75**: whether `parse` returns on every text is as hard: from a machine one computes rules with which `parse` returns on every
ASCII text if and only if the machine does not halt. So no condition on rules that can be checked, such as the one of C12, is
met by exactly the rules that always return. -/
theorem C75_returns (P : List Instr) (a : Nat) : (∀ s, Ascii s → parse s (trapRules P a) ≠ .diverge) ↔ ¬ HaltsFrom P ⟨0, a, 0⟩ := by
  rw [halts_iff_history]
  constructor
  · rintro h ⟨s, hs⟩
    refine h s (history_ascii hs) ((C02_parse_diverges_iff_peg_any_bounds (history_ascii hs)).2 ?_)
    rintro ⟨o, ho⟩
    exact (trap_main P a s).1 hs o ho
  · intro h s ha
    exact (returns_iff ha).2 ⟨_, (trap_main P a s).2 fun hs => h ⟨s, hs⟩⟩

example : (¬ ∃ s t, parse s (historyRules [.inc false 0] 0) = .ok t) ∧ ∀ s, Ascii s → parse s (trapRules [.inc false 0] 0) ≠ .diverge :=
  ⟨fun h => exCounts 0 ((C75_empty _ _).1.1 h), (C75_returns _ _).2 (exCounts 0)⟩

example : ∃ s, Ascii s ∧ parse s (trapRules [.inc false 1, .dec false 2 0] 0) = .diverge := by
  by_contra hn
  refine (C75_returns [.inc false 1, .dec false 2 0] 0).1 (fun s ha hd => hn ⟨s, ha, hd⟩) ?_
  exact .later (.incA rfl) (.later (.decA rfl) (.now (Nat.le_refl 2)))

end DP
