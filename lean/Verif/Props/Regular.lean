/-
Property C73: every regular language is described by some rules, and parsed in linear time.
-/
import Mathlib.Computability.DFA
import Verif.Proofs.Bill
import Verif.Props.Combine
import Verif.Props.PegFront
import Verif.Props.Effort

namespace DP
open Spec

/-! ### The rules of an automaton -/

/-- the name of the rule of a state: "q", "qq", "qqq", ... -/
def stateName (i : Nat) : Str := List.replicate (i + 1) 'q'

def asciiChars : List Char := (List.range 128).map Char.ofNat

/-- `'a' qa / 'b' qb / ...`, for a final state followed by `/ !.` -/
def stateRule {k : Nat} (M : DFA Char (_root_.Fin k)) (last : Bool) (i : _root_.Fin k) : Expr :=
  .or ((asciiChars.map fun c => .and [.simple (.literal [c]), .ruleName (stateName (M.step i c))]) ++
    if last then [.not (.simple .dot)] else [])

/-- `main` is the rule of the start state -/
def automaton {k : Nat} (M : DFA Char (_root_.Fin k)) (final : _root_.Fin k → Bool) : SetOfRules :=
  ⟨(c!"main", .ruleName (stateName M.start)) :: (List.finRange k).map fun i : _root_.Fin k => (stateName i, stateRule M (final i) i)⟩

theorem asciiChars_mem {c : Char} (h : c.toNat < 128) : c ∈ asciiChars := by
  refine List.mem_map.2 ⟨c.toNat, List.mem_range.2 h, ?_⟩
  simp

theorem stateName_inj {i j : Nat} (h : stateName i = stateName j) : i = j := by
  have := congrArg List.length h
  simpa [stateName] using this

theorem stateName_main (i : Nat) : stateName i ≠ c!"main" := by
  intro h
  have := congrArg List.head? h
  simp [stateName, List.replicate_succ] at this

variable {k : Nat} (M : DFA Char (_root_.Fin k)) (final : _root_.Fin k → Bool)

theorem automaton_bounds : RulesBoundsOK (automaton M final) := by
  intro ne h
  simp only [automaton, List.mem_cons, List.mem_map] at h
  rcases h with rfl | ⟨i, _, rfl⟩
  · exact .ruleName _
  · refine .or fun e he => ?_
    simp only [List.mem_append, List.mem_map] at he
    rcases he with ⟨c, _, rfl⟩ | he
    · refine .and fun e he => ?_
      simp only [List.mem_cons, List.not_mem_nil, or_false] at he
      rcases he with rfl | rfl
      · exact .simple _
      · exact .ruleName _
    · split at he
      · cases List.mem_singleton.1 he
        exact .not (.simple _)
      · cases he

theorem automaton_denotes : denotes (automaton M final) = grammar (automaton M final) := denotes_of_boundsOK (automaton_bounds M final)

theorem automaton_main : denotes (automaton M final) c!"main" = some (.ruleName (stateName M.start)) := by
  rw [automaton_denotes]
  simp [grammar, automaton]

theorem automaton_state (i : _root_.Fin k) : denotes (automaton M final) (stateName i) = some (stateRule M (final i) i) := by
  rw [automaton_denotes]
  have h1 : (stateName i == c!"main") = false := by simpa using stateName_main i
  simp only [grammar, automaton, List.lookup_cons, h1]
  have : ∀ l : List (_root_.Fin k), i ∈ l → (l.map fun i : _root_.Fin k => (stateName i, stateRule M (final i) i)).lookup (stateName i) = some (stateRule M (final i) i) := by
    intro l
    induction l with
    | nil => intro h; cases h
    | cons j l ih =>
      intro h
      rw [List.map_cons, List.lookup_cons]
      by_cases hj : i = j
      · subst hj; simp
      · have h2 : (stateName i == stateName j) = false := by
          simp only [beq_eq_false_iff_ne]
          exact fun h => hj (_root_.Fin.ext (stateName_inj h))
        rw [h2]
        exact ih ((List.mem_cons.1 h).resolve_left hj)
  exact this _ (List.mem_finRange i)

theorem automaton_rules {n e} (h : denotes (automaton M final) n = some e) :
    (n = c!"main" ∧ e = .ruleName (stateName M.start)) ∨ ∃ i : _root_.Fin k, n = stateName i ∧ e = stateRule M (final i) i := by
  rw [automaton_denotes] at h
  have := mem_of_lookup h
  simp only [automaton, List.mem_cons, List.mem_map, Prod.mk.injEq] at this
  rcases this with ⟨rfl, rfl⟩ | ⟨i, _, rfl, rfl⟩
  · exact .inl ⟨rfl, rfl⟩
  · exact .inr ⟨i, rfl, rfl⟩

/-! ### They are well-formed -/

theorem state_calls {G} {last : Bool} {i : _root_.Fin k} {n} (h : LeftCalls G (stateRule M last i) n) : False := by
  cases h with
  | or hm h =>
    simp only [List.mem_append, List.mem_map] at hm
    rcases hm with ⟨c, _, rfl⟩ | hm
    · generalize hx : Expr.and [.simple (.literal [c]), .ruleName (stateName (M.step i c))] = x at h
      cases h with
      | @and pre e post _ hp h =>
        simp only [Expr.and.injEq] at hx
        cases pre with
        | nil =>
          rw [List.nil_append] at hx
          cases hx
          cases h
        | cons y pre =>
          rw [List.cons_append] at hx
          injection hx with hy _
          have := hp y (by simp)
          rw [← hy] at this
          cases this
      | _ => cases hx
    · split at hm
      · cases List.mem_singleton.1 hm
        cases h with
        | not h => cases h
      · cases hm

theorem automaton_wf : WellFormed (denotes (automaton M final)) where
  no_left_recursion n h := by
    have step : ∀ a b, LeftStep (denotes (automaton M final)) a b → a = c!"main" ∧ b ≠ c!"main" := by
      rintro a b ⟨e, hg, hc⟩
      rcases automaton_rules M final hg with ⟨rfl, rfl⟩ | ⟨i, rfl, rfl⟩
      · cases hc with
        | here => exact ⟨rfl, stateName_main _⟩
      · exact (state_calls M hc).elim
    have : ∀ a b, Relation.TransGen (LeftStep (denotes (automaton M final))) a b → a = c!"main" ∧ b ≠ c!"main" := by
      intro a b h
      induction h with
      | single h => exact step _ _ h
      | tail _ h ih => exact ⟨ih.1, (step _ _ h).2⟩
    exact (this n n h).2 (this n n h).1
  no_empty_repetition n e b mn hg hs := by
    exfalso
    rcases automaton_rules M final hg with ⟨rfl, rfl⟩ | ⟨i, rfl, rfl⟩
    · cases hs
    · cases hs with
      | or hm h =>
        simp only [List.mem_append, List.mem_map] at hm
        rcases hm with ⟨c, _, rfl⟩ | hm
        · cases h with
          | and hm h =>
            simp only [List.mem_cons, List.not_mem_nil, or_false] at hm
            rcases hm with rfl | rfl <;> cases h
        · split at hm
          · cases List.mem_singleton.1 hm
            cases h with
            | not h => cases h
          · cases hm

/-! ### What they accept -/

section
variable {M final}

theorem letters_other {G} {i : _root_.Fin k} {s : Str} {es o} : ∀ cs : List Char, (∀ c ∈ cs, s.head? ≠ some c) → Peg G (.or es) s o →
    Peg G (.or ((cs.map fun c => .and [.simple (.literal [c]), .ruleName (stateName (M.step i c))]) ++ es)) s o
  | [], _, h => h
  | c :: cs, hc, h => by
    refine .or_next (.and_fail (.lit_fail _ _ ?_)) (letters_other cs (fun c h => hc c (List.mem_cons_of_mem _ h)) h)
    rintro ⟨t, rfl⟩
    exact hc c (by simp) rfl

theorem letters_hit {G} {i : _root_.Fin k} {a : Char} {s : Str} {es o} (ho : o ≠ .fail) (h : Peg G (.ruleName (stateName (M.step i a))) s o) :
    ∀ cs : List Char, a ∈ cs → ∃ o', Peg G (.or ((cs.map fun c => .and [.simple (.literal [c]), .ruleName (stateName (M.step i c))]) ++ es)) (a :: s) o' ∧
      (∀ r ns, o = .ok r ns → o' = .ok r (.val [a] :: ns))
  | c :: cs, hc => by
    by_cases e : a = c
    · subst e
      have h1 : Peg G (.simple (.literal [a])) (a :: s) (.ok s [.val [a]]) := .lit_ok [a] s
      cases o with
      | ok r ns =>
        have := Peg.and_ok h1 (.and_ok h (.and_nil _))
        rw [List.append_nil] at this
        exact ⟨_, .or_ok this, fun r' ns' h => by cases h; rfl⟩
      | fail => exact absurd rfl ho
      | crit w q => exact ⟨_, .or_crit (.and_tail_crit h1 (.and_crit h)), fun r ns h => by cases h⟩
    · obtain ⟨o', h1, h2⟩ := letters_hit ho h cs ((List.mem_cons.1 hc).resolve_left e)
      refine ⟨o', .or_next (.and_fail (.lit_fail _ _ ?_)) h1, h2⟩
      rintro ⟨t, ht⟩
      injection ht with h _
      exact e h.symm

theorem letters_miss {G} {i : _root_.Fin k} {a : Char} {s : Str} {es o} (h : Peg G (.ruleName (stateName (M.step i a))) s .fail) (he : Peg G (.or es) (a :: s) o) :
    ∀ cs : List Char, Peg G (.or ((cs.map fun c => .and [.simple (.literal [c]), .ruleName (stateName (M.step i c))]) ++ es)) (a :: s) o
  | [] => he
  | c :: cs => by
    refine .or_next ?_ (letters_miss h he cs)
    by_cases e : a = c
    · subst e
      exact .and_tail_fail (.lit_ok [a] s) (.and_fail h)
    · refine .and_fail (.lit_fail _ _ ?_)
      rintro ⟨t, ht⟩
      injection ht with h _
      exact e h.symm

theorem automaton_peg : ∀ (s : Str) (i : _root_.Fin k), Ascii s →
    (final (M.evalFrom i s) = true → ∃ ns, Peg (denotes (automaton M final)) (.ruleName (stateName i)) s (.ok [] ns)) ∧
    (final (M.evalFrom i s) = false → Peg (denotes (automaton M final)) (.ruleName (stateName i)) s .fail)
  | [], i, _ => by
    constructor
    · intro h
      rw [DFA.evalFrom_nil] at h
      refine ⟨[.rule _ []], .call_ok (automaton_state M final i) ?_⟩
      exact letters_other _ (by simp) (by rw [h]; exact .or_ok (.not_fail .dot_end))
    · intro h
      rw [DFA.evalFrom_nil] at h
      refine .call_fail (automaton_state M final i) ?_
      exact letters_other _ (by simp) (by rw [h]; exact .or_nil _)
  | a :: s, i, ha => by
    have ih := automaton_peg s (M.step i a) (fun c hc => ha c (List.mem_cons_of_mem _ hc))
    have hm : a ∈ asciiChars := asciiChars_mem (ha a (by simp))
    constructor
    · intro h
      rw [DFA.evalFrom_cons] at h
      obtain ⟨ns, h1⟩ := ih.1 h
      obtain ⟨o', h2, h3⟩ := letters_hit (es := if final i then [.not (.simple .dot)] else []) (by simp) h1 asciiChars hm
      cases h3 _ _ rfl
      exact ⟨_, .call_ok (automaton_state M final i) h2⟩
    · intro h
      rw [DFA.evalFrom_cons] at h
      refine .call_fail (automaton_state M final i) (letters_miss (ih.2 h) ?_ asciiChars)
      split
      · exact .or_next (.not_ok (.dot_ok a s)) (.or_nil _)
      · exact .or_nil _

end

theorem automaton_accepts (s : Str) : (∃ t, parse s (automaton M final) = .ok t) ↔ Ascii s ∧ final (M.eval s) = true := by
  constructor
  · rintro ⟨t, h⟩
    have ha := C17_ok_only_on_ascii h
    refine ⟨ha, ?_⟩
    obtain ⟨ns, _, h1⟩ := inv_call (automaton_main M final) ((C02_parse_ok_iff_peg_any_bounds _ t ha).1 h)
    cases hf : final (M.eval s) with
    | true => rfl
    | false => cases peg_det h1 ((automaton_peg s M.start ha).2 hf)
  · rintro ⟨ha, hf⟩
    obtain ⟨ns, h⟩ := (automaton_peg s M.start ha).1 hf
    exact (accepted_iff ha).2 ⟨_, .call_ok (automaton_main M final) h⟩

/-! ### The work -/

/-- how often the first character is among the letters -/
def tally : Str → List Char → Nat
  | [], _ => 0
  | a :: _, cs => cs.count a

theorem letters_cost {G} {i : _root_.Fin k} {s : Str} {es : List Expr} {X E : Nat}
    (hX : ∀ a t, s = a :: t → ∀ c o, Bill G (.ruleName (stateName (M.step i a))) t c o → c ≤ X) (hE : ∀ c o, Bill G (.or es) s c o → c ≤ E) :
    ∀ (cs : List Char) c o, Bill G (.or ((cs.map fun c => .and [.simple (.literal [c]), .ruleName (stateName (M.step i c))]) ++ es)) s c o →
      c ≤ 4 * cs.length + E + tally s cs * X
  | [], c, o, h => by have := hE c o h; omega
  | d :: cs, c, o, h => by
    have ih := letters_cost hX hE cs
    generalize hN : tally s cs = N at ih
    -- one alternative
    have h1 : ∀ c o, Bill G (.and [.simple (.literal [d]), .ruleName (stateName (M.step i d))]) s c o →
        c ≤ 2 + (tally s (d :: cs) - N) * X := by
      intro c o h
      have hit : ∀ r c', Bill G (.simple (.literal [d])) s c' (.yes r) → c' = 1 ∧ s = d :: r := by
        intro r c' hb
        have h2 := bill_simple hb
        obtain ⟨p, hp, hk⟩ := bill_peg hb
        obtain ⟨ns, rfl⟩ := kind_yes hk
        cases hp
        exact ⟨h2, rfl⟩
      cases h with
      | and_yes h h' =>
        obtain ⟨rfl, rfl⟩ := hit _ _ h
        simp only [tally] at hN
        simp only [tally, List.count_cons_self, hN, Nat.add_sub_cancel_left, Nat.one_mul]
        cases h' with
        | and_yes h' h'' => have := hX _ _ rfl _ _ h'; cases h''; omega
        | and_no h' => have := hX _ _ rfl _ _ h'; omega
        | and_stop h' => have := hX _ _ rfl _ _ h'; omega
      | and_no h => have := bill_simple h; omega
      | and_stop h => have := bill_simple h; omega
    have hNN : N ≤ tally s (d :: cs) := by
      subst hN
      cases s with
      | nil => exact Nat.le_refl _
      | cons a t => exact List.count_le_count_cons
    generalize tally s (d :: cs) = N' at h1 hNN ⊢
    obtain ⟨D, rfl⟩ : ∃ D, N' = N + D := ⟨N' - N, by omega⟩
    rw [Nat.add_sub_cancel_left] at h1
    rw [Nat.add_mul, List.length_cons]
    cases h with
    | or_yes h => have := h1 _ _ h; omega
    | or_stop h => have := h1 _ _ h; omega
    | or_no h h' => have := h1 _ _ h; have := ih _ _ h'; omega

theorem asciiChars_nodup : asciiChars.Nodup := by decide +kernel

theorem asciiChars_length : asciiChars.length = 128 := by simp [asciiChars]

theorem state_cost : ∀ (s : Str) (i : _root_.Fin k) c o, Bill (denotes (automaton M final)) (.ruleName (stateName i)) s c o →
    c ≤ 520 * (s.length + 1) := by
  intro s
  induction s with
  | nil =>
    intro i c o h
    cases h with
    | missing hg => rw [automaton_state] at hg; cases hg
    | call hg h =>
      rw [automaton_state] at hg; cases hg
      have := letters_cost M (X := 0) (E := 4) (fun a t h => by cases h) ?_ asciiChars _ _ h
      · rw [asciiChars_length] at this; simp only [List.length_nil] at *; omega
      · intro c o h
        split at h
        · cases h with
          | or_yes h => cases h with | not_no h => have := bill_simple h; omega | not_stop h => have := bill_simple h; omega
          | or_stop h => cases h
          | or_no h h' => cases h' ; cases h with | not_yes h => have := bill_simple h; omega
        · cases h; omega
  | cons a t ih =>
    intro i c o h
    cases h with
    | missing hg => rw [automaton_state] at hg; cases hg
    | call hg h =>
      rw [automaton_state] at hg; cases hg
      have := letters_cost M (X := 520 * (t.length + 1)) (E := 4) (fun b u h c o hb => by cases h; exact ih _ _ _ hb) ?_ asciiChars _ _ h
      · have h1 := List.nodup_iff_count_le_one.1 asciiChars_nodup a
        have h2 := Nat.mul_le_mul_right (520 * (t.length + 1)) h1
        rw [asciiChars_length] at this
        simp only [List.length_cons, tally] at *
        omega
      · intro c o h
        split at h
        · cases h with
          | or_yes h => cases h with | not_no h => have := bill_simple h; omega | not_stop h => have := bill_simple h; omega
          | or_stop h => cases h
          | or_no h h' => cases h' ; cases h with | not_yes h => have := bill_simple h; omega
        · cases h; omega

theorem automaton_cost {s : Str} (ha : Ascii s) : ∃ m, Uses s (automaton M final) m ∧ m.calls ≤ 520 * (s.length + 1) := by
  obtain ⟨m, hm⟩ := (C53_uses s _).1.mp (C12_well_formed_grammars_terminate (automaton_wf M final) s).1
  refine ⟨m, hm, ?_⟩
  obtain ⟨o, h⟩ := billed ((C53_effort ha _ _).1 hm)
  generalize hc : m.calls + 1 = c at h
  cases h with
  | missing hg => rw [automaton_main] at hg; cases hg
  | call hg h =>
    rw [automaton_main] at hg; cases hg
    have := state_cost M final _ _ _ _ h
    omega

/-! ### C73 -/

/-- **C73**: for every regular language there is a well-formed set of rules that accepts exactly the ASCII texts in it, and
with which `parse` takes at most 520 calls for each character. -/
theorem C73_regular {L : Language Char} (h : L.IsRegular) : ∃ R : SetOfRules, WellFormed (denotes R) ∧
    (∀ s, (∃ t, parse s R = .ok t) ↔ Ascii s ∧ s ∈ L) ∧
    ∀ s, Ascii s → ∃ m, Uses s R m ∧ m.calls ≤ 520 * (s.length + 1) := by
  obtain ⟨σ, _, M, rfl⟩ := h
  classical
  let eq := Fintype.equivFin σ
  refine ⟨automaton (DFA.reindex eq M) fun i => decide (i ∈ (DFA.reindex eq M).accept), automaton_wf _ _, fun s => ?_, fun s ha => automaton_cost _ _ ha⟩
  rw [automaton_accepts, decide_eq_true_iff, ← DFA.mem_accepts, DFA.accepts_reindex]

/-- an even number of letters "a" -/
def exEven : DFA Char (_root_.Fin 2) := ⟨fun i c => if c = 'a' then i + 1 else i, 0, {0}⟩

example : (∃ t, parse c!"abba" (automaton exEven (· = 0)) = .ok t) ∧ ¬ ∃ t, parse c!"ab" (automaton exEven (· = 0)) = .ok t := by
  rw [automaton_accepts, automaton_accepts]
  refine ⟨⟨by unfold Ascii; decide, by decide⟩, ?_⟩
  rintro ⟨_, h⟩
  revert h
  decide

example : ∃ R : SetOfRules, ∀ s, (∃ t, parse s R = .ok t) ↔ Ascii s ∧ s ∈ exEven.accepts := by
  obtain ⟨R, _, h, _⟩ := C73_regular ⟨_, inferInstance, exEven, rfl⟩
  exact ⟨R, h⟩

/-! ### Not only regular ones -/

/-- `p = 'x' p? 'y'` -/
def pairRule (p : Str) (x y : Char) : Expr := .and [.simple (.literal [x]), .rep (.ruleName p) 0 (some 1), .simple (.literal [y])]

theorem lit_other {G} {x c : Char} {r : Str} (h : x ≠ c) : Peg G (.simple (.literal [x])) (c :: r) .fail := by
  refine .lit_fail _ _ ?_
  rintro ⟨t, ht⟩
  injection ht with h1 _
  exact h h1

theorem pairs_ok {G p x y} (hg : G p = some (pairRule p x y)) (hxy : x ≠ y) : ∀ n r, ∃ ns,
    Peg G (.ruleName p) (List.replicate (n + 1) x ++ (List.replicate (n + 1) y ++ r)) (.ok r ns)
  | 0, r => ⟨_, .call_ok hg (.and_ok (.lit_ok [x] _) (.and_ok (.rep_stop (by simp) (.call_fail hg (.and_fail (lit_other hxy))))
      (.and_ok (.lit_ok [y] r) (.and_nil _))))⟩
  | n + 1, r => by
    obtain ⟨ns, h⟩ := pairs_ok hg hxy n (y :: r)
    have e : List.replicate (n + 1 + 1) x ++ (List.replicate (n + 1 + 1) y ++ r) =
        [x] ++ (List.replicate (n + 1) x ++ (List.replicate (n + 1) y ++ y :: r)) := by
      rw [List.replicate_succ, List.replicate_succ' (n := n + 1) (a := y)]; simp
    rw [e]
    exact ⟨_, .call_ok hg (.and_ok (.lit_ok [x] _) (.and_ok (.rep_more (by simp) h (.rep_full _ _ _)) (.and_ok (.lit_ok [y] r) (.and_nil _))))⟩

theorem pairs_inv {G p x y} (hg : G p = some (pairRule p x y)) : ∀ (k : Nat) (s r : Str) (ns : List Node), s.length ≤ k →
    Peg G (.ruleName p) s (.ok r ns) → ∃ n, s = List.replicate (n + 1) x ++ (List.replicate (n + 1) y ++ r) := by
  intro k
  induction k with
  | zero =>
    intro s r ns hk h
    obtain ⟨cs, _, h⟩ := inv_call hg h
    obtain ⟨q, _, _, h1, _, _⟩ := inv_and h
    cases h1
    simp at hk
  | succ k ih =>
    intro s r ns hk h
    obtain ⟨cs, _, h⟩ := inv_call hg h
    obtain ⟨q, _, _, h1, h2, _⟩ := inv_and h
    obtain ⟨q2, _, _, h3, h4, _⟩ := inv_and h2
    obtain ⟨q3, _, _, h5, h6, _⟩ := inv_and h4
    obtain ⟨rfl, _⟩ := inv_and_nil h6
    cases h1
    cases h5
    simp only [List.length_append, List.length_cons, List.length_nil] at hk
    cases h3 with
    | rep_more _ h7 h8 =>
      obtain ⟨n, rfl⟩ := ih _ _ _ (by omega) h7
      cases h8 with
      | rep_full =>
        refine ⟨n + 1, ?_⟩
        rw [List.replicate_succ (n := n + 1), List.replicate_succ' (n := n + 1) (a := y)]; simp
      | rep_more h0 _ _ => exact absurd rfl h0
      | rep_stop h0 _ => exact absurd rfl h0
    | rep_stop _ _ => exact ⟨0, rfl⟩

theorem letters_inv {G} {x : Char} {s : Str} {mn r ns} (h : Peg G (.rep (.simple (.literal [x])) mn none) s (.ok r ns)) :
    (∃ j, s = List.replicate j x ++ r) ∧ r.head? ≠ some x := by
  generalize he : Expr.rep (.simple (.literal [x])) mn none = e at h
  generalize ho : Outcome.ok r ns = o at h
  induction h generalizing mn ns with
  | rep_more _ h1 _ _ ih2 =>
    cases he; cases ho
    cases h1
    obtain ⟨⟨j, rfl⟩, h2⟩ := ih2 rfl rfl
    exact ⟨⟨j + 1, rfl⟩, h2⟩
  | rep_stop _ h1 _ =>
    cases he; cases ho
    refine ⟨⟨0, rfl⟩, fun hx => ?_⟩
    cases s' : r with
    | nil => rw [s'] at hx; cases hx
    | cons c t =>
      rw [s'] at hx h1
      cases hx
      cases peg_det h1 (.lit_ok [x] t)
  | rep_full => cases he
  | _ => first | (cases ho; done) | cases he

theorem letters_ok {G} {x : Char} {r : Str} (h : r.head? ≠ some x) : ∀ j, ∃ ns,
    Peg G (.rep (.simple (.literal [x])) 0 none) (List.replicate j x ++ r) (.ok r ns)
  | 0 => by
    refine ⟨_, .rep_stop (by simp) (.lit_fail _ _ ?_)⟩
    rintro ⟨t, rfl⟩
    exact h rfl
  | j + 1 => by
    obtain ⟨ns, h1⟩ := letters_ok (G := G) h j
    exact ⟨_, .rep_more (by simp) (.lit_ok [x] _) h1⟩

theorem runs_eq {x : Char} {u v : Str} (hu : u.head? ≠ some x) (hv : v.head? ≠ some x) : ∀ {n j}, List.replicate n x ++ u = List.replicate j x ++ v → n = j ∧ u = v
  | 0, 0, h => ⟨rfl, h⟩
  | 0, j + 1, h => absurd (by rw [show u = _ from h]; rfl) hu
  | n + 1, 0, h => absurd (by rw [show v = _ from h.symm]; rfl) hv
  | n + 1, j + 1, h => by
    rw [List.replicate_succ, List.replicate_succ, List.cons_append, List.cons_append] at h
    obtain ⟨rfl, h2⟩ := runs_eq hu hv (List.cons.inj h).2
    exact ⟨rfl, h2⟩

def exCount : SetOfRules := ⟨[(c!"bc", pairRule c!"bc" 'b' 'c'), (c!"ab", pairRule c!"ab" 'a' 'b'),
  (c!"main", .and [.not (.not (.and [.ruleName c!"ab", .simple (.literal c!"c")])), .rep (.simple (.literal c!"a")) 1 none, .ruleName c!"bc"])]⟩

theorem count_rules : rulesFromPeg c!"main = !(!(ab 'c')) 'a'+ bc\nab = 'a' ab? 'b'\nbc = 'b' bc? 'c'\n" = .ok exCount :=
  rulesFromPeg_of 300 (by decide +kernel)

/-- **C73**, beyond the context-free languages: a PEG text whose rules accept exactly the texts of n letters "a", n letters "b"
and n letters "c". -/
theorem C73_counting : ∃ R, rulesFromPeg c!"main = !(!(ab 'c')) 'a'+ bc\nab = 'a' ab? 'b'\nbc = 'b' bc? 'c'\n" = .ok R ∧
    ∀ s, (∃ t, parse s R = .ok t) ↔ ∃ n, 1 ≤ n ∧ s = List.replicate n 'a' ++ List.replicate n 'b' ++ List.replicate n 'c' := by
  refine ⟨_, count_rules, fun s => ?_⟩
  have gm : denotes exCount c!"main" = some (.and [.not (.not (.and [.ruleName c!"ab", .simple (.literal c!"c")])), .rep (.simple (.literal c!"a")) 1 none,
    .ruleName c!"bc"]) := rfl
  have gab : denotes exCount c!"ab" = some (pairRule c!"ab" 'a' 'b') := rfl
  have gbc : denotes exCount c!"bc" = some (pairRule c!"bc" 'b' 'c') := rfl
  constructor
  · rintro ⟨t, h⟩
    obtain ⟨_, h⟩ := (parse_iff _ _ _).1 h
    obtain ⟨_, _, h⟩ := inv_call gm h
    obtain ⟨q, _, _, h1, h2, _⟩ := inv_and h
    obtain ⟨q2, _, _, h3, h4, _⟩ := inv_and h2
    obtain ⟨q3, _, _, h5, h6, _⟩ := inv_and h4
    obtain ⟨rfl, _⟩ := inv_and_nil h6
    obtain ⟨rfl, _, _⟩ := inv_not h1
    have h7 : ∃ r ns, Peg (denotes exCount) (.and [.ruleName c!"ab", .simple (.literal c!"c")]) s (.ok r ns) := by
      cases h1 with
      | not_fail h1 =>
        cases h1 with
        | not_ok h1 => exact ⟨_, _, h1⟩
      | not_crit h1 => cases h1
    obtain ⟨r, _, h7⟩ := h7
    obtain ⟨q4, _, _, h8, h9, _⟩ := inv_and h7
    obtain ⟨q5, _, _, h10, h11, _⟩ := inv_and h9
    obtain ⟨n, e1⟩ := pairs_inv gab _ _ _ _ (Nat.le_refl _) h8
    obtain ⟨m, e2⟩ := pairs_inv gbc _ _ _ _ (Nat.le_refl _) h5
    obtain ⟨⟨j, e3⟩, h12⟩ := letters_inv h3
    cases h10
    rw [e1] at e3
    obtain ⟨_, e4⟩ := runs_eq (by simp [List.replicate_succ]) h12 e3
    rw [e2] at e4
    obtain ⟨e5, e6⟩ := runs_eq (by simp) (by simp [List.replicate_succ]) e4
    refine ⟨n + 1, by omega, ?_⟩
    rw [e1, e6, show m = n by omega]
    simp
  · rintro ⟨n, hn, rfl⟩
    obtain ⟨n, rfl⟩ : ∃ k, n = k + 1 := ⟨n - 1, by omega⟩
    refine (accepted_iff ?_).2 ?_
    · intro c hc
      simp only [List.mem_append, List.mem_replicate] at hc
      rcases hc with (⟨_, rfl⟩ | ⟨_, rfl⟩) | ⟨_, rfl⟩ <;> decide
    · obtain ⟨n1, h1⟩ := pairs_ok gab (by decide) n (List.replicate (n + 1) 'c')
      obtain ⟨n2, h2⟩ := pairs_ok gbc (by decide) n []
      rw [List.append_nil] at h2
      obtain ⟨n3, h3⟩ := letters_ok (G := denotes exCount) (x := 'a') (r := List.replicate (n + 1) 'b' ++ List.replicate (n + 1) 'c') (by simp [List.replicate_succ]) n
      rw [List.append_assoc]
      have h4 : Peg (denotes exCount) (.and [.simple (.literal c!"c")]) (List.replicate (n + 1) 'c') (.ok (List.replicate n 'c') [.val c!"c"]) :=
        .and_ok (.lit_ok c!"c" (List.replicate n 'c')) (.and_nil _)
      have h5 := Peg.rep_more (mn := 1) (mx := none) (by simp) (.lit_ok c!"a" _) h3
      exact ⟨_, .call_ok gm (.and_ok (.not_fail (.not_ok (.and_ok h1 h4))) (.and_ok h5 (.and_ok h2 (.and_nil _))))⟩

example : ∃ t, parse c!"aabbcc" exCount = .ok t := by
  obtain ⟨R, h, h1⟩ := C73_counting
  rw [count_rules] at h
  cases h
  exact (h1 _).2 ⟨2, by decide, rfl⟩

end DP
