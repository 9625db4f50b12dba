/-
Expressions that match under a condition and fail otherwise.
-/
import Verif.Spec.Peg
import Verif.Proofs.PegInv

namespace DP
open Spec

/-- if `c`, then `e` matches a beginning of `s` and leaves `r`; otherwise it fails -/
def Does (G : Str → Option Expr) (e : Expr) (s : Str) (c : Prop) (r : Str) : Prop :=
  (c → ∃ ns, Peg G e s (.ok r ns)) ∧ (¬ c → Peg G e s .fail)

variable {G : Str → Option Expr}

theorem Does.congr {e s c c' r} (h : Does G e s c r) (hc : c' ↔ c) : Does G e s c' r :=
  ⟨fun h1 => h.1 (hc.1 h1), fun h1 => h.2 (fun h2 => h1 (hc.2 h2))⟩

theorem Does.leaves {e s c r r'} (h : Does G e s c r) (hr : c → r = r') : Does G e s c r' :=
  ⟨fun h1 => hr h1 ▸ h.1 h1, h.2⟩

theorem does_dot (s : Str) : Does G (.simple .dot) s (s ≠ []) s.tail := by
  cases s with
  | nil => exact ⟨fun h => absurd rfl h, fun _ => .dot_end⟩
  | cons c s => exact ⟨fun _ => ⟨_, .dot_ok c s⟩, fun h => absurd (by simp) h⟩

theorem does_nil (s : Str) : Does G (.and []) s True s := ⟨fun _ => ⟨_, .and_nil s⟩, fun h => absurd trivial h⟩

theorem does_and {e es s c r c' r'} (h : Does G e s c r) (h' : c → Does G (.and es) r c' r') : Does G (.and (e :: es)) s (c ∧ c') r' := by
  constructor
  · rintro ⟨h1, h2⟩
    obtain ⟨ns, h3⟩ := h.1 h1
    obtain ⟨ns', h4⟩ := (h' h1).1 h2
    exact ⟨_, .and_ok h3 h4⟩
  · intro hn
    by_cases h1 : c
    · obtain ⟨ns, h3⟩ := h.1 h1
      exact .and_tail_fail h3 ((h' h1).2 fun h2 => hn ⟨h1, h2⟩)
    · exact .and_fail (h.2 h1)

theorem does_or_nil (s r : Str) : Does G (.or []) s False r := ⟨False.elim, fun _ => .or_nil s⟩

theorem does_or {e es s c c' r} (h : Does G e s c r) (h' : Does G (.or es) s c' r) : Does G (.or (e :: es)) s (c ∨ c') r := by
  by_cases h1 : c
  · obtain ⟨ns, h2⟩ := h.1 h1
    exact ⟨fun _ => ⟨_, .or_ok h2⟩, fun hn => absurd (.inl h1) hn⟩
  · constructor
    · rintro (h2 | h2)
      · exact absurd h2 h1
      · obtain ⟨ns, h3⟩ := h'.1 h2
        exact ⟨_, .or_next (h.2 h1) h3⟩
    · intro hn
      exact .or_next (h.2 h1) (h'.2 fun h2 => hn (.inr h2))

theorem does_or_map {ι : Type} {f : ι → Expr} {es s c' r} {c : ι → Prop} : ∀ {l : List ι}, (∀ i ∈ l, Does G (f i) s (c i) r) → Does G (.or es) s c' r →
    Does G (.or (l.map f ++ es)) s ((∃ i ∈ l, c i) ∨ c') r
  | [], _, h' => h'.congr (by simp)
  | i :: l, h, h' => by
    have := does_or (h i (by simp)) (does_or_map (l := l) (fun j hj => h j (by simp [hj])) h')
    exact this.congr (by simp [or_assoc])

theorem does_not {e s c r} (h : Does G e s c r) : Does G (.not e) s (¬ c) s := by
  constructor
  · intro h1; exact ⟨_, .not_fail (h.2 h1)⟩
  · intro h1
    obtain ⟨ns, h2⟩ := h.1 (Classical.not_not.1 h1)
    exact .not_ok h2

theorem does_look {e s c r} (h : Does G e s c r) : Does G (.not (.not e)) s c s :=
  (does_not (does_not h)).congr Classical.not_not.symm

theorem does_call {n e s c r} (hg : G n = some e) (h : Does G e s c r) : Does G (.ruleName n) s c r := by
  constructor
  · intro h1
    obtain ⟨ns, h2⟩ := h.1 h1
    exact ⟨_, .call_ok hg h2⟩
  · intro h1; exact .call_fail hg (h.2 h1)

/-! ### Runs of one character -/

/-- how often the text begins with `c` -/
def lead (c : Char) (s : Str) : Nat := (s.takeWhile (· = c)).length

/-- the text after that -/
def past (c : Char) (s : Str) : Str := s.dropWhile (· = c)

theorem lead_cons (c : Char) (s : Str) : lead c (c :: s) = lead c s + 1 := by simp [lead]
theorem past_cons (c : Char) (s : Str) : past c (c :: s) = past c s := by simp [past]
theorem lead_other {c d : Char} (h : d ≠ c) (s : Str) : lead c (d :: s) = 0 := by simp [lead, h]
theorem past_other {c d : Char} (h : d ≠ c) (s : Str) : past c (d :: s) = d :: s := by simp [past, h]

theorem lead_past (c : Char) (s : Str) : s = List.replicate (lead c s) c ++ past c s := by
  induction s with
  | nil => rfl
  | cons d s ih =>
    by_cases h : d = c
    · subst h
      rw [lead_cons, past_cons, List.replicate_succ, List.cons_append, ← ih]
    · rw [lead_other h, past_other h]; rfl

theorem past_head (c : Char) (s : Str) : (past c s).head? ≠ some c := by
  induction s with
  | nil => simp [past]
  | cons d s ih =>
    by_cases h : d = c
    · subst h; rwa [past_cons]
    · rw [past_other h]; simpa using h

theorem lead_replicate {c : Char} {s : Str} (h : s.head? ≠ some c) (n : Nat) : lead c (List.replicate n c ++ s) = n := by
  induction n with
  | zero =>
    cases s with
    | nil => rfl
    | cons d s => exact lead_other (by simpa using h) s
  | succ n ih => rw [List.replicate_succ, List.cons_append, lead_cons, ih]

theorem past_replicate {c : Char} {s : Str} (h : s.head? ≠ some c) (n : Nat) : past c (List.replicate n c ++ s) = s := by
  induction n with
  | zero =>
    cases s with
    | nil => rfl
    | cons d s => exact past_other (by simpa using h) s
  | succ n ih => rw [List.replicate_succ, List.cons_append, past_cons, ih]

theorem past_length (c : Char) (s : Str) : (past c s).length ≤ s.length := (List.dropWhile_suffix _).length_le

theorem does_lit_one (c : Char) (s : Str) : Does G (.simple (.literal [c])) s (s.head? = some c) s.tail := by
  cases s with
  | nil => exact ⟨fun h => by simp at h, fun _ => .lit_fail _ _ (by simp)⟩
  | cons d s =>
    constructor
    · intro h
      obtain rfl : d = c := by simpa using h
      exact ⟨_, .lit_ok [d] s⟩
    · intro h
      refine .lit_fail _ _ ?_
      rintro ⟨t, ht⟩
      injection ht with h1 _
      exact h (by simp [h1])

/-- `'ccc'` -/
theorem does_lits (c : Char) (n : Nat) (s : Str) : Does G (.simple (.literal (List.replicate n c))) s (n ≤ lead c s)
    (List.replicate (lead c s - n) c ++ past c s) := by
  constructor
  · intro h
    refine ⟨[.val (List.replicate n c)], ?_⟩
    have : s = List.replicate n c ++ (List.replicate (lead c s - n) c ++ past c s) := by
      rw [← List.append_assoc, List.replicate_append_replicate, Nat.add_sub_cancel' h, ← lead_past]
    have h1 := Peg.lit_ok (G := G) (List.replicate n c) (List.replicate (lead c s - n) c ++ past c s)
    rwa [← this] at h1
  · intro h
    refine .lit_fail _ _ ?_
    rintro ⟨t, ht⟩
    apply h
    rw [← ht, lead_past c t, ← List.append_assoc, List.replicate_append_replicate, lead_replicate (past_head c t)]
    omega

/-- `c*` -/
theorem does_star (c : Char) (s : Str) : Does G (.rep (.simple (.literal [c])) 0 none) s True (past c s) := by
  refine ⟨fun _ => ?_, fun h => absurd trivial h⟩
  induction s with
  | nil => exact ⟨_, .rep_stop (by simp) ((does_lit_one c []).2 (by simp))⟩
  | cons d s ih =>
    by_cases h : d = c
    · subst h
      obtain ⟨ns, h1⟩ := ih
      rw [past_cons]
      exact ⟨_, .rep_more (by simp) (.lit_ok [d] s) h1⟩
    · rw [past_other h]
      exact ⟨_, .rep_stop (by simp) ((does_lit_one c (d :: s)).2 (by simpa using h))⟩

/-- the `n` characters before the end of the run, and then something else: `'ccc' !'c'` -/
theorem does_exactly {c : Char} (n : Nat) {es s c' r'} (h : lead c s = n → Does G (.and es) (past c s) c' r') :
    Does G (.and (.simple (.literal (List.replicate n c)) :: .not (.simple (.literal [c])) :: es)) s (lead c s = n ∧ c') r' := by
  have key : n ≤ lead c s → ((List.replicate (lead c s - n) c ++ past c s).head? ≠ some c ↔ lead c s = n) := by
    intro hn
    constructor
    · intro hh
      by_contra hne
      obtain ⟨k, hk⟩ : ∃ k, lead c s - n = k + 1 := ⟨lead c s - n - 1, by omega⟩
      rw [hk, List.replicate_succ] at hh
      exact hh rfl
    · intro he
      rw [he, Nat.sub_self]
      exact past_head c s
  have : Does G (.and (.simple (.literal (List.replicate n c)) :: .not (.simple (.literal [c])) :: es)) s (n ≤ lead c s ∧
      (¬ (List.replicate (lead c s - n) c ++ past c s).head? = some c) ∧ c') r' :=
    does_and (does_lits c n s) fun hn => does_and (does_not (does_lit_one c _)) fun hh => by
      have he := (key hn).1 hh
      rw [he, Nat.sub_self]
      exact h he
  refine this.congr ⟨fun ⟨h1, h2⟩ => ⟨by omega, (key (by omega)).2 h1, h2⟩, fun ⟨h1, h2, h3⟩ => ⟨(key h1).1 h2, h3⟩⟩

/-- `p = 'c' p 'c' / m`: a run, what `m` matches, and as long a run -/
theorem does_mirror {p : Str} {c : Char} {m : Expr} (hg : G p = some (.or [.and [.simple (.literal [c]), .ruleName p, .simple (.literal [c])], m]))
    {s d r} (hm : Does G m (past c s) d r) (hc : ∀ t, Peg G m (c :: t) .fail) :
    Does G (.ruleName p) s (d ∧ lead c s ≤ lead c r) (List.replicate (lead c r - lead c s) c ++ past c r) := by
  have hm0 : ∀ {s}, lead c s = 0 → past c s = s := by
    intro s h
    have := lead_past c s
    rw [h] at this
    exact this.symm
  induction s with
  | nil =>
    have h1 : Does G (.and [.simple (.literal [c]), .ruleName p, .simple (.literal [c])]) [] False r :=
      ⟨False.elim, fun _ => .and_fail ((does_lit_one c []).2 (by simp))⟩
    have := does_call hg (does_or h1 (does_or hm (does_or_nil [] r)))
    rw [show lead c [] = 0 from rfl, Nat.sub_zero, ← lead_past]
    exact this.congr (by simp)
  | cons x s ih =>
    by_cases hx : x = c
    · subst hx
      rw [past_cons] at hm
      have h0 := ih hm
      have h2 : Does G (.and [.simple (.literal [x]), .ruleName p, .simple (.literal [x])]) (x :: s)
          ((x :: s).head? = some x ∧ (d ∧ lead x s ≤ lead x r) ∧ (List.replicate (lead x r - lead x s) x ++ past x r).head? = some x ∧ True)
          (List.replicate (lead x r - lead x s) x ++ past x r).tail :=
        does_and (does_lit_one x _) fun _ => does_and h0 fun _ => does_and (does_lit_one x _) fun _ => does_nil _
      have hf : Does G (.or [m]) (x :: s) False (List.replicate (lead x r - lead x s) x ++ past x r).tail :=
        ⟨False.elim, fun _ => .or_next (hc s) (.or_nil _)⟩
      have h3 := does_call hg (does_or h2 hf)
      rw [lead_cons]
      by_cases hl : lead x s + 1 ≤ lead x r
      · obtain ⟨k, hk⟩ : ∃ k, lead x r - lead x s = k + 1 := ⟨lead x r - lead x s - 1, by omega⟩
        have hk' : lead x r - (lead x s + 1) = k := by omega
        rw [hk] at h3
        rw [hk']
        refine h3.congr ⟨fun h => .inl ⟨rfl, ⟨h.1, by omega⟩, rfl, trivial⟩, ?_⟩
        rintro (⟨_, ⟨h, _⟩, _⟩ | h)
        · exact ⟨h, hl⟩
        · exact h.elim
      · refine ⟨fun h => absurd h.2 hl, fun _ => h3.2 ?_⟩
        rintro (⟨_, ⟨_, h4⟩, h5, _⟩ | h)
        · rw [show lead x r - lead x s = 0 by omega] at h5
          exact past_head x r h5
        · exact h
    · have h1 : Does G (.and [.simple (.literal [c]), .ruleName p, .simple (.literal [c])]) (x :: s) False r :=
        ⟨False.elim, fun _ => .and_fail ((does_lit_one c _).2 (by simpa using hx))⟩
      rw [past_other hx] at hm
      have := does_call hg (does_or h1 (does_or hm (does_or_nil _ r)))
      rw [lead_other hx, Nat.sub_zero, ← lead_past]
      exact this.congr (by simp)

end DP
