/-
C101: comments inside of comments, and those that are not closed (src/parser/expression/mod.rs:231-328, src/lib.rs:486-521).
-/
import Verif.Spec.Nested
import Verif.Props.Levels
import Verif.Props.CalcCost
import Verif.Props.Alike

namespace DP
open Spec

/-- `main = 'o' (main / g .)* 'c'` -/
def nestedRules (g : Expr) (o c : Char) : SetOfRules :=
  ⟨[(c!"main", .and [.simple (.literal [o]), .rep (.or [.ruleName c!"main", .and [g, .simple .dot]]) 0 none, .simple (.literal [c])])]⟩

/-- `main = 'o' (main / !'c' .)* 'c'` -/
def nestedRulesLoose (o c : Char) : SetOfRules := nestedRules (.not (.simple (.literal [c]))) o c

/-- `main = 'o' (main / !('o' / 'c') .)* 'c'` -/
def nestedRulesStrict (o c : Char) : SetOfRules := nestedRules (.not (.or [.simple (.literal [o]), .simple (.literal [c])])) o c

/-- what is needed of the guard before `.` -/
structure Guard (o c : Char) (g : Expr) : Prop where
  bounds : BoundsOK g
  pass : ∀ G x s, x ≠ o → x ≠ c → Peg G g (x :: s) (.ok (x :: s) [])
  pass_nil : ∀ G, Peg G g [] (.ok [] [])
  stop : ∀ G s, Peg G g (c :: s) .fail
  opens : (∀ G s, Peg G g (o :: s) (.ok (o :: s) [])) ∨ (∀ G s, Peg G g (o :: s) .fail)
  cost : ∀ {G s k v}, Bill G g s k v → k ≤ 4

theorem bill_not_le {G e s k v} (h : Bill G (.not e) s k v) : ∃ k' v', k = k' + 1 ∧ Bill G e s k' v' := by
  cases h with
  | not_yes h => exact ⟨_, _, rfl, h⟩
  | not_no h => exact ⟨_, _, rfl, h⟩
  | not_stop h => exact ⟨_, _, rfl, h⟩

theorem loose_guard {o c : Char} (h : o ≠ c) : Guard o c (.not (.simple (.literal [c]))) where
  bounds := .not (.simple _)
  pass _ _ _ _ hx := .not_fail (char_misses hx)
  pass_nil _ := .not_fail char_misses_nil
  stop _ s := .not_ok (.lit_ok [c] s)
  opens := .inl fun _ _ => .not_fail (char_misses h)
  cost hb := by
    obtain ⟨k, v, rfl, h⟩ := bill_not_le hb
    have := bill_simple h
    omega

theorem strict_guard {o c : Char} (h : o ≠ c) : Guard o c (.not (.or [.simple (.literal [o]), .simple (.literal [c])])) where
  bounds := .not (.or fun x hx => by
    simp only [List.mem_cons, List.not_mem_nil, or_false] at hx
    rcases hx with rfl | rfl <;> exact .simple _)
  pass _ _ _ ho hx := .not_fail (.or_next (char_misses ho) (.or_next (char_misses hx) (.or_nil _)))
  pass_nil _ := .not_fail (.or_next char_misses_nil (.or_next char_misses_nil (.or_nil _)))
  stop _ s := .not_ok (.or_next (char_misses h.symm) (.or_ok (.lit_ok [c] s)))
  opens := .inr fun _ s => .not_ok (.or_ok (.lit_ok [o] s))
  cost hb := by
    obtain ⟨k, v, rfl, h⟩ := bill_not_le hb
    have := bill_or_lits h
    omega

section
variable {o c : Char} {g : Expr}

theorem nest_main (hg : Guard o c g) : denotes (nestedRules g o c) c!"main" = some (.and [.simple (.literal [o]),
    .rep (.or [.ruleName c!"main", .and [g, .simple .dot]]) 0 none, .simple (.literal [c])]) := by
  rw [denotes_of_boundsOK]
  · rfl
  · intro ne h
    rw [List.mem_singleton.1 h]
    refine .and fun x hx => ?_
    simp only [List.mem_cons, List.not_mem_nil, or_false] at hx
    rcases hx with rfl | rfl | rfl
    · exact .simple _
    · refine .rep (.or fun x hx => ?_) (by simp)
      simp only [List.mem_cons, List.not_mem_nil, or_false] at hx
      rcases hx with rfl | rfl
      · exact .ruleName _
      · refine .and fun x hx => ?_
        simp only [List.mem_cons, List.not_mem_nil, or_false] at hx
        rcases hx with rfl | rfl
        · exact hg.bounds
        · exact .simple _
    · exact .simple _

local notation "G" => denotes (nestedRules g o c)
local notation "stepE" => Expr.or [Expr.ruleName c!"main", Expr.and [g, Expr.simple Atom.dot]]

theorem nest_off (hg : Guard o c g) {x : Char} {s : Str} (hx : x ≠ o) : Peg G (.ruleName c!"main") (x :: s) .fail :=
  .call_fail (nest_main hg) (.and_fail (char_misses hx))

theorem nest_off_nil (hg : Guard o c g) : Peg G (.ruleName c!"main") [] .fail :=
  .call_fail (nest_main hg) (.and_fail char_misses_nil)

theorem nest_end (hg : Guard o c g) : Peg G stepE [] .fail :=
  .or_next (nest_off_nil hg) (.or_next (.and_tail_fail (hg.pass_nil _) (.and_fail .dot_end)) (.or_nil _))

theorem nest_close (hg : Guard o c g) (h : o ≠ c) {s : Str} : Peg G stepE (c :: s) .fail :=
  .or_next (nest_off hg h.symm) (.or_next (.and_fail (hg.stop _ _)) (.or_nil _))

theorem nest_chr (hg : Guard o c g) {x : Char} {s : Str} (ho : x ≠ o) (hc : x ≠ c) : Peg G stepE (x :: s) (.ok s [.val [x]]) :=
  .or_next (nest_off hg ho) (.or_ok (.and_ok (hg.pass _ _ _ ho hc) (.and_ok (.dot_ok x s) (.and_nil _))))

/-- the repetition takes everything inside, whatever it does afterwards -/
theorem inside_peg (hg : Guard o c g) (h : o ≠ c) : ∀ (b : Inside) (u r : Str) (ns : List Node), b.Plain o c →
    Peg G (.rep stepE 0 none) u (.ok r ns) → Peg G (.rep stepE 0 none) (b.str o c ++ u) (.ok r (b.nodes o c ++ ns))
  | .nil, _, _, _, _, hu => hu
  | .chr x b, u, r, ns, hp, hu => by
    have h1 : Peg G (.rep stepE 0 none) (x :: (b.str o c ++ u)) (.ok r ([.val [x]] ++ (b.nodes o c ++ ns))) :=
      .rep_more (by simp) (nest_chr hg hp.1 hp.2.1) (inside_peg hg h b u r ns hp.2.2 hu)
    exact h1
  | .nest b b', u, r, ns, hp, hu => by
    have h1 := inside_peg hg h b (c :: (b'.str o c ++ u)) _ [] hp.1 (.rep_stop (by simp) (nest_close hg h))
    have h2 : Peg G (.ruleName c!"main") (o :: (b.str o c ++ c :: (b'.str o c ++ u))) _ :=
      .call_ok (nest_main hg) (.and_ok (.lit_ok [o] _) (.and_ok h1 (.and_ok (.lit_ok [c] _) (.and_nil _))))
    have h3 := Peg.rep_more (mn := 0) (mx := none) (by simp) (.or_ok h2) (inside_peg hg h b' u r ns hp.2 hu)
    simpa [Inside.str, Inside.nodes] using h3

theorem comment_peg (hg : Guard o c g) (h : o ≠ c) {b : Inside} (hp : b.Plain o c) (r : Str) : Peg G (.ruleName c!"main")
    (o :: (b.str o c ++ c :: r)) (.ok r [.rule c!"main" (.val [o] :: (b.nodes o c ++ [.val [c]]))]) := by
  have h1 := inside_peg hg h b (c :: r) _ [] hp (.rep_stop (by simp) (nest_close hg h))
  have h2 : Peg G (.ruleName c!"main") (o :: (b.str o c ++ c :: r)) _ :=
    .call_ok (nest_main hg) (.and_ok (.lit_ok [o] _) (.and_ok h1 (.and_ok (.lit_ok [c] _) (.and_nil _))))
  simpa using h2

/-- the text ends before the comment -/
inductive Unclosed (o c : Char) : Str → Prop
  | fin (b : Inside) : b.Plain o c → Unclosed o c (b.str o c)
  | more (b : Inside) {v} : b.Plain o c → Unclosed o c v → Unclosed o c (b.str o c ++ o :: v)

/-- then the repetition ends at the end of the text or at an `o` -/
theorem unclosed_rep (hg : Guard o c g) (h : o ≠ c) {u : Str} (hu : Unclosed o c u) :
    ∃ w ns, Peg G (.rep stepE 0 none) u (.ok w ns) ∧ (w = [] ∨ ∃ v, w = o :: v) := by
  induction hu with
  | fin b hp =>
    have := inside_peg hg h b [] [] [] hp (.rep_stop (by simp) (nest_end hg))
    rw [List.append_nil] at this
    exact ⟨_, _, this, .inl rfl⟩
  | @more b v hp _ ih =>
    obtain ⟨w, ns, h1, h2⟩ := ih
    have hm : Peg G (.ruleName c!"main") (o :: v) .fail := by
      refine .call_fail (nest_main hg) (.and_tail_fail (.lit_ok [o] _) (.and_tail_fail h1 (.and_fail ?_)))
      rcases h2 with rfl | ⟨w, rfl⟩
      · exact char_misses_nil
      · exact char_misses h
    rcases hg.opens with hop | hop
    · exact ⟨w, _, inside_peg hg h b _ _ _ hp (.rep_more (by simp)
        (.or_next hm (.or_ok (.and_ok (hop _ _) (.and_ok (.dot_ok o v) (.and_nil _))))) h1), h2⟩
    · exact ⟨o :: v, _, inside_peg hg h b _ _ _ hp (.rep_stop (by simp) (.or_next hm (.or_next (.and_fail (hop _ _)) (.or_nil _)))), .inr ⟨v, rfl⟩⟩

theorem unclosed_fail (hg : Guard o c g) (h : o ≠ c) {u : Str} (hu : Unclosed o c u) : Peg G (.ruleName c!"main") (o :: u) .fail := by
  obtain ⟨w, ns, h1, h2⟩ := unclosed_rep hg h hu
  refine .call_fail (nest_main hg) (.and_tail_fail (.lit_ok [o] _) (.and_tail_fail h1 (.and_fail ?_)))
  rcases h2 with rfl | ⟨w, rfl⟩
  · exact char_misses_nil
  · exact char_misses h

/-- either or -/
theorem closed_or_not (h : o ≠ c) : ∀ (n : Nat) (u : Str), u.length ≤ n →
    (∃ (b : Inside) (r : Str), b.Plain o c ∧ u = b.str o c ++ c :: r) ∨ Unclosed o c u
  | _, [], _ => .inr (.fin .nil trivial)
  | 0, _ :: _, hn => by simp at hn
  | n + 1, x :: v, hn => by
    simp only [List.length_cons, Nat.add_le_add_iff_right] at hn
    by_cases hc : x = c
    · exact .inl ⟨.nil, v, trivial, by rw [hc]; rfl⟩
    · by_cases ho : x = o
      · rcases closed_or_not h n v hn with ⟨b, r, hp, rfl⟩ | hu
        · simp only [List.length_append, List.length_cons] at hn
          rcases closed_or_not h n r (by omega) with ⟨b', r', hp', rfl⟩ | hu
          · exact .inl ⟨.nest b b', r', ⟨hp, hp'⟩, by simp [Inside.str, ho]⟩
          · right
            cases hu with
            | fin b' hp' =>
              have := Unclosed.fin (.nest b b') ⟨hp, hp'⟩
              rw [ho]
              exact this
            | @more b' w hp' hw =>
              have := Unclosed.more (.nest b b') ⟨hp, hp'⟩ hw
              rw [ho]
              simpa [Inside.str] using this
        · rw [ho]
          exact .inr (.more .nil trivial hu)
      · rcases closed_or_not h n v hn with ⟨b, r, hp, rfl⟩ | hu
        · exact .inl ⟨.chr x b, r, ⟨ho, hc, hp⟩, rfl⟩
        · right
          cases hu with
          | fin b hp => exact .fin (.chr x b) ⟨ho, hc, hp⟩
          | more b hp hw => exact .more (.chr x b) ⟨ho, hc, hp⟩ hw

theorem nested_iff (hg : Guard o c g) (h : o ≠ c) (s : Str) (t : Node) : parse s (nestedRules g o c) = .ok t ↔
    Ascii s ∧ ∃ b : Inside, b.Plain o c ∧ s = o :: (b.str o c ++ [c]) ∧ t = .rule c!"main" (.val [o] :: (b.nodes o c ++ [.val [c]])) := by
  rw [parse_iff]
  refine and_congr_right fun _ => ⟨fun hs => ?_, ?_⟩
  · cases s with
    | nil => cases peg_det hs (nest_off_nil hg)
    | cons x u =>
      by_cases ho : x = o
      · rw [ho] at hs ⊢
        rcases closed_or_not h _ u (Nat.le_refl _) with ⟨b, r, hp, rfl⟩ | hu
        · cases peg_det hs (comment_peg hg h hp r)
          exact ⟨b, hp, rfl, rfl⟩
        · cases peg_det hs (unclosed_fail hg h hu)
      · cases peg_det hs (nest_off hg ho)
  · rintro ⟨b, hp, rfl, rfl⟩
    exact comment_peg hg h hp []

/-- **C101**: `parse` accepts exactly the comments in which every comment is closed, and returns a node for each comment and each character. -/
theorem C101_comments (h : o ≠ c) (s : Str) (t : Node) : parse s (nestedRulesLoose o c) = .ok t ↔
    Ascii s ∧ ∃ b : Inside, b.Plain o c ∧ s = o :: (b.str o c ++ [c]) ∧ t = .rule c!"main" (.val [o] :: (b.nodes o c ++ [.val [c]])) :=
  nested_iff (loose_guard h) h s t

/-- **C101**: with `!('o' / 'c')` instead of `!'c'` it is the same. -/
theorem C101_strict_same (h : o ≠ c) (s : Str) (t : Node) : parse s (nestedRulesStrict o c) = .ok t ↔ parse s (nestedRulesLoose o c) = .ok t :=
  (nested_iff (strict_guard h) h s t).trans (C101_comments h s t).symm

theorem afterClose_plain {x : Char} (ho : x ≠ o) (hc : x ≠ c) (d : Nat) (r : Str) : afterClose o c d (x :: r) = afterClose o c d r := by
  cases d <;> simp [afterClose, ho, hc]

theorem afterClose_open (h : o ≠ c) (d : Nat) (r : Str) : afterClose o c d (o :: r) = afterClose o c (d + 1) r := by
  cases d <;> simp [afterClose, h]

theorem afterClose_nil (d : Nat) : afterClose o c d [] = none := by cases d <;> rfl

theorem afterClose_zero (r : Str) : afterClose o c 0 (c :: r) = some r := by simp [afterClose]

theorem afterClose_succ (d : Nat) (r : Str) : afterClose o c (d + 1) (c :: r) = afterClose o c d r := by simp [afterClose]

theorem afterClose_inside (h : o ≠ c) : ∀ (b : Inside) (d : Nat) (u : Str), b.Plain o c → afterClose o c d (b.str o c ++ u) = afterClose o c d u
  | .nil, _, _, _ => rfl
  | .chr x b, d, u, hp => by
    rw [Inside.str, List.cons_append, afterClose_plain hp.1 hp.2.1, afterClose_inside h b d u hp.2.2]
  | .nest b b', d, u, hp => by
    rw [Inside.str, List.cons_append, afterClose_open h, List.append_assoc, afterClose_inside h b _ _ hp.1, List.cons_append,
      afterClose_succ]
    exact afterClose_inside h b' d u hp.2

theorem afterClose_unclosed (h : o ≠ c) {u : Str} (hu : Unclosed o c u) : ∀ d, afterClose o c d u = none := by
  induction hu with
  | fin b hp => intro d; have := afterClose_inside h b d [] hp; rw [List.append_nil] at this; rw [this, afterClose_nil]
  | more b hp _ ih => intro d; rw [afterClose_inside h b d _ hp, afterClose_open h, ih]

/-- **C101**: counting tells the same: the `c` for the first `o` is the last character. -/
theorem C101_counting (h : o ≠ c) (s : Str) : (∃ t, parse s (nestedRulesLoose o c) = .ok t) ↔
    Ascii s ∧ ∃ u, s = o :: u ∧ afterClose o c 0 u = some [] := by
  constructor
  · rintro ⟨t, ht⟩
    obtain ⟨ha, b, hp, rfl, _⟩ := (C101_comments h s t).1 ht
    exact ⟨ha, _, rfl, by rw [afterClose_inside h b _ _ hp, afterClose_zero]⟩
  · rintro ⟨ha, u, rfl, hu⟩
    rcases closed_or_not h _ u (Nat.le_refl _) with ⟨b, r, hp, rfl⟩ | hn
    · rw [afterClose_inside h b _ _ hp, afterClose_zero] at hu
      cases hu
      exact ⟨_, (C101_comments h _ _).2 ⟨ha, b, hp, rfl, rfl⟩⟩
    · rw [afterClose_unclosed h hn] at hu
      cases hu

/-! ### What it costs -/

theorem off_cost (hg : Guard o c g) {s : Str} {k v} (hs : ∀ r, s ≠ o :: r) (hb : Bill G (.ruleName c!"main") s k v) : k = 3 := by
  have hl : Peg G (.simple (.literal [o])) s .fail := by
    cases s with
    | nil => exact char_misses_nil
    | cons x r => exact char_misses fun hx => hs r (by rw [hx])
  obtain ⟨k1, rfl, h1⟩ := bill_call (nest_main hg) hb
  obtain ⟨k2, rfl, h2⟩ := bill_and_fail hl h1
  have := bill_simple h2
  omega

theorem end_cost (hg : Guard o c g) {k v} (hb : Bill G stepE [] k v) : k ≤ 10 := by
  obtain ⟨k1, k2, rfl, h1, h2⟩ := bill_or_fail (nest_off_nil hg) hb
  have hd : Peg G (.and [g, .simple .dot]) [] .fail := .and_tail_fail (hg.pass_nil _) (.and_fail .dot_end)
  obtain ⟨k3, k4, rfl, h3, h4⟩ := bill_or_fail hd h2
  obtain ⟨k5, k6, rfl, h5, h6⟩ := bill_and (hg.pass_nil _) h3
  obtain ⟨k7, rfl, h7⟩ := bill_and_fail .dot_end h6
  have := off_cost hg (by simp) h1
  have := hg.cost h5
  have := bill_simple h7
  cases h4
  omega

theorem close_cost (hg : Guard o c g) (h : o ≠ c) {s : Str} {k v} (hb : Bill G stepE (c :: s) k v) : k ≤ 9 := by
  obtain ⟨k1, k2, rfl, h1, h2⟩ := bill_or_fail (nest_off hg h.symm) hb
  obtain ⟨k3, k4, rfl, h3, h4⟩ := bill_or_fail (.and_fail (hg.stop _ _)) h2
  obtain ⟨k5, rfl, h5⟩ := bill_and_fail (hg.stop _ _) h3
  have := off_cost hg (fun r hr => h (by cases hr; rfl)) h1
  have := hg.cost h5
  cases h4
  omega

theorem chr_cost (hg : Guard o c g) {x : Char} {s : Str} (ho : x ≠ o) (hc : x ≠ c) {k v} (hb : Bill G stepE (x :: s) k v) : k ≤ 10 := by
  obtain ⟨k1, k2, rfl, h1, h2⟩ := bill_or_fail (nest_off hg ho) hb
  obtain ⟨k3, rfl, h3⟩ := bill_or (.and_ok (hg.pass _ _ _ ho hc) (.and_ok (.dot_ok x s) (.and_nil _))) h2
  obtain ⟨k4, k5, rfl, h4, h5⟩ := bill_and (hg.pass _ _ _ ho hc) h3
  obtain ⟨k6, k7, rfl, h6, h7⟩ := bill_and (.dot_ok x s) h5
  have := off_cost hg (fun r hr => ho (by cases hr; rfl)) h1
  have := hg.cost h4
  have := bill_simple h6
  have := bill_nil h7
  omega

/-- ten calls for each character inside, and the rest -/
theorem inside_cost (hg : Guard o c g) (h : o ≠ c) : ∀ (b : Inside) (u : Str), b.Plain o c → ∀ {k v},
    Bill G (.rep stepE 0 none) (b.str o c ++ u) k v → ∃ k', Bill G (.rep stepE 0 none) u k' v ∧ k ≤ 10 * (b.str o c).length + k'
  | .nil, _, _, k, v, hb => ⟨k, hb, by omega⟩
  | .chr x b, u, hp, k, v, hb => by
    obtain ⟨k1, k2, rfl, h1, h2⟩ := bill_rep (by simp) (nest_chr hg hp.1 hp.2.1) hb
    obtain ⟨k', h3, h4⟩ := inside_cost hg h b u hp.2.2 h2
    have := chr_cost hg hp.1 hp.2.1 h1
    exact ⟨k', h3, by simp [Inside.str]; omega⟩
  | .nest b b', u, hp, k, v, hb => by
    have hs : (Inside.nest b b').str o c ++ u = o :: (b.str o c ++ c :: (b'.str o c ++ u)) := by simp [Inside.str]
    rw [hs] at hb
    have hm := comment_peg hg h hp.1 (b'.str o c ++ u)
    obtain ⟨k1, k2, rfl, h1, h2⟩ := bill_rep (by simp) (.or_ok hm) hb
    obtain ⟨k', h3, h4⟩ := inside_cost hg h b' u hp.2 h2
    obtain ⟨k3, rfl, h5⟩ := bill_or hm h1
    obtain ⟨k4, rfl, h6⟩ := bill_call (nest_main hg) h5
    obtain ⟨k5, k6, rfl, h7, h8⟩ := bill_and (.lit_ok [o] _) h6
    have hr := inside_peg hg h b (c :: (b'.str o c ++ u)) _ [] hp.1 (.rep_stop (by simp) (nest_close hg h))
    obtain ⟨k7, k8, rfl, h9, h10⟩ := bill_and hr h8
    obtain ⟨k9, k10, rfl, h11, h12⟩ := bill_and (.lit_ok [c] _) h10
    obtain ⟨k11, h13, h14⟩ := inside_cost hg h b _ hp.1 h9
    obtain ⟨k12, rfl, h15⟩ := bill_rep_fail (by simp) (nest_close hg h) h13
    have := close_cost hg h h15
    have := bill_simple h7
    have := bill_simple h11
    have := bill_nil h12
    exact ⟨k', h3, by simp [Inside.str]; omega⟩

theorem comment_cost (hg : Guard o c g) (h : o ≠ c) {b : Inside} (hp : b.Plain o c) {r : Str} {k v}
    (hb : Bill G (.ruleName c!"main") (o :: (b.str o c ++ c :: r)) k v) : k ≤ 10 * (b.str o c).length + 14 := by
  obtain ⟨k4, rfl, h6⟩ := bill_call (nest_main hg) hb
  obtain ⟨k5, k6, rfl, h7, h8⟩ := bill_and (.lit_ok [o] _) h6
  have hr := inside_peg hg h b (c :: r) _ [] hp (.rep_stop (by simp) (nest_close hg h))
  obtain ⟨k7, k8, rfl, h9, h10⟩ := bill_and hr h8
  obtain ⟨k9, k10, rfl, h11, h12⟩ := bill_and (.lit_ok [c] _) h10
  obtain ⟨k11, h13, h14⟩ := inside_cost hg h b _ hp h9
  obtain ⟨k12, rfl, h15⟩ := bill_rep_fail (by simp) (nest_close hg h) h13
  have := close_cost hg h h15
  have := bill_simple h7
  have := bill_simple h11
  have := bill_nil h12
  omega

theorem accepted_linear (hg : Guard o c g) (h : o ≠ c) {s : Str} {t : Node} (ht : parse s (nestedRules g o c) = .ok t) :
    ∃ m, Uses s (nestedRules g o c) m ∧ m.calls ≤ 10 * s.length := by
  obtain ⟨ha, b, hp, rfl, rfl⟩ := (nested_iff hg h s t).1 ht
  obtain ⟨m, hm⟩ := (C53_uses _ _).1.1 (by rw [ht]; simp)
  obtain ⟨v, hb⟩ := billed ((C53_effort ha _ _).1 hm)
  have := comment_cost hg h hp hb
  exact ⟨m, hm, by simp; omega⟩

/-- **C101**: an accepted text takes at most ten calls for each character, with either rules. -/
theorem C101_linear (h : o ≠ c) {s : Str} {t : Node} (ht : parse s (nestedRulesLoose o c) = .ok t) :
    (∃ m, Uses s (nestedRulesLoose o c) m ∧ m.calls ≤ 10 * s.length) ∧ ∃ m, Uses s (nestedRulesStrict o c) m ∧ m.calls ≤ 10 * s.length :=
  ⟨accepted_linear (loose_guard h) h ht, accepted_linear (strict_guard h) h ((C101_strict_same h s t).2 ht)⟩

theorem nest_total (hg : Guard o c g) (h : o ≠ c) (s : Str) : ∃ v, Peg G (.ruleName c!"main") s v := by
  cases s with
  | nil => exact ⟨_, nest_off_nil hg⟩
  | cons x u =>
    by_cases ho : x = o
    · rw [ho]
      rcases closed_or_not h _ u (Nat.le_refl _) with ⟨b, r, hp, rfl⟩ | hu
      · exact ⟨_, comment_peg hg h hp r⟩
      · exact ⟨_, unclosed_fail hg h hu⟩
    · exact ⟨_, nest_off hg ho⟩

theorem nest_uses (hg : Guard o c g) (h : o ≠ c) {s : Str} (ha : Ascii s) : ∃ m, Uses s (nestedRules g o c) m :=
  (C53_uses s (nestedRules g o c)).1.1 (by
    rw [Ne, parse_diverges_iff ha]
    obtain ⟨v, hv⟩ := nest_total hg h s
    exact fun h => h v hv)

/-- when the guard stops at `o`, a comment that is not closed is read once -/
theorem unclosed_cost (hg : Guard o c g) (h : o ≠ c) (hop : ∀ H s, Peg H g (o :: s) .fail) {u : Str} (hu : Unclosed o c u) : ∀ {k v},
    Bill G (.ruleName c!"main") (o :: u) k v → k ≤ 11 * u.length + 20 := by
  induction hu with
  | fin b hp =>
    intro k v hb
    obtain ⟨k1, rfl, h1⟩ := bill_call (nest_main hg) hb
    obtain ⟨k2, k3, rfl, h2, h3⟩ := bill_and (.lit_ok [o] _) h1
    have hr := inside_peg hg h b [] _ [] hp (.rep_stop (by simp) (nest_end hg))
    rw [List.append_nil] at hr
    obtain ⟨k4, k5, rfl, h4, h5⟩ := bill_and hr h3
    obtain ⟨k6, rfl, h6⟩ := bill_and_fail char_misses_nil h5
    obtain ⟨k7, h7, h8⟩ := inside_cost hg h b [] hp (by rw [List.append_nil]; exact h4)
    obtain ⟨k8, rfl, h9⟩ := bill_rep_fail (by simp) (nest_end hg) h7
    have := end_cost hg h9
    have := bill_simple h2
    have := bill_simple h6
    omega
  | @more b w hp hw ih =>
    intro k v hb
    have hm := unclosed_fail hg h hw
    have hst : Peg G stepE (o :: w) .fail := .or_next hm (.or_next (.and_fail (hop _ _)) (.or_nil _))
    obtain ⟨k1, rfl, h1⟩ := bill_call (nest_main hg) hb
    obtain ⟨k2, k3, rfl, h2, h3⟩ := bill_and (.lit_ok [o] _) h1
    have hr := inside_peg hg h b _ _ [] hp (.rep_stop (by simp) hst)
    obtain ⟨k4, k5, rfl, h4, h5⟩ := bill_and hr h3
    obtain ⟨k6, rfl, h6⟩ := bill_and_fail (char_misses h) h5
    obtain ⟨k7, h7, h8⟩ := inside_cost hg h b _ hp h4
    obtain ⟨k8, rfl, h9⟩ := bill_rep_fail (by simp) hst h7
    obtain ⟨k9, k10, rfl, h10, h11⟩ := bill_or_fail hm h9
    obtain ⟨k11, k12, rfl, h12, h13⟩ := bill_or_fail (.and_fail (hop _ _)) h11
    obtain ⟨k14, rfl, h14⟩ := bill_and_fail (hop _ _) h12
    have := ih h10
    have := hg.cost h14
    have := bill_simple h2
    have := bill_simple h6
    cases h13
    simp only [List.length_append, List.length_cons]
    omega

/-- **C101**: with `!('o' / 'c')` every text takes at most so many calls, also when it is not accepted. -/
theorem C101_strict_linear (h : o ≠ c) {s : Str} (ha : Ascii s) : ∃ m, Uses s (nestedRulesStrict o c) m ∧ m.calls ≤ 11 * s.length + 10 := by
  have hg := strict_guard h
  obtain ⟨m, hm⟩ := nest_uses hg h ha
  obtain ⟨v, hb⟩ := billed ((C53_effort ha _ _).1 hm)
  refine ⟨m, hm, ?_⟩
  by_cases hs : ∃ u, s = o :: u
  · obtain ⟨u, rfl⟩ := hs
    rcases closed_or_not h _ u (Nat.le_refl _) with ⟨b, r, hp, rfl⟩ | hu
    · have := comment_cost hg h hp hb
      simp
      omega
    · have := unclosed_cost hg h (fun _ s => .not_ok (.or_ok (.lit_ok [o] s))) hu hb
      simp
      omega
  · have := off_cost hg (fun r hr => hs ⟨r, hr⟩) hb
    omega

theorem unclosed_run (o c : Char) : ∀ n, Unclosed o c (List.replicate n o)
  | 0 => .fin .nil trivial
  | n + 1 => .more .nil trivial (unclosed_run o c n)

/-- when the guard lets `o` pass, what follows each `o` is read twice -/
theorem loose_cost (hg : Guard o c g) (h : o ≠ c) (hop : ∀ H s, Peg H g (o :: s) (.ok (o :: s) [])) : ∀ (n : Nat) {k v},
    Bill G (.rep stepE 0 none) (List.replicate n o) k v → 2 ^ n ≤ k
  | 0, k, v, hb => by have := bill_pos hb; simpa using this
  | n + 1, k, v, hb => by
    have hm := unclosed_fail hg h (unclosed_run o c n)
    have hst : Peg G stepE (o :: List.replicate n o) (.ok (List.replicate n o) [.val [o]]) :=
      .or_next hm (.or_ok (.and_ok (hop _ _) (.and_ok (.dot_ok o _) (.and_nil _))))
    rw [List.replicate_succ] at hb
    obtain ⟨k1, k2, rfl, h1, h2⟩ := bill_rep (by simp) hst hb
    have i2 := loose_cost hg h hop n h2
    obtain ⟨k3, k4, rfl, h3, h4⟩ := bill_or_fail hm h1
    obtain ⟨k5, rfl, h5⟩ := bill_call (nest_main hg) h3
    obtain ⟨k6, k7, rfl, h6, h7⟩ := bill_and (.lit_ok [o] _) h5
    obtain ⟨w, ns, hr, _⟩ := unclosed_rep hg h (unclosed_run o c n)
    obtain ⟨k8, k9, rfl, h8, h9⟩ := bill_and hr h7
    have i1 := loose_cost hg h hop n h8
    rw [Nat.pow_succ]
    omega

/-- **C101**: with `!'c'` the text of `n + 1` times `o` takes at least `2 ^ n` calls before it is rejected. -/
theorem C101_loose_slow (h : o ≠ c) (ho : o.toNat < 128) (n : Nat) :
    (∃ x, parse (List.replicate (n + 1) o) (nestedRulesLoose o c) = .err x) ∧
    ∃ m, Uses (List.replicate (n + 1) o) (nestedRulesLoose o c) m ∧ 2 ^ n ≤ m.calls := by
  have ha : Ascii (List.replicate (n + 1) o) := by
    intro x hx
    rw [(List.mem_replicate.1 hx).2]
    exact ho
  have hg := loose_guard h
  have hf := unclosed_fail hg h (unclosed_run o c n)
  obtain ⟨m, hm⟩ := nest_uses hg h ha
  refine ⟨?_, m, hm, ?_⟩
  · cases hq : parse (List.replicate (n + 1) o) (nestedRulesLoose o c) with
    | err x => exact ⟨x, rfl⟩
    | ok t => cases peg_det hf ((parse_iff _ _ _).1 hq).2
    | panic => exact absurd hq (C16_no_panic_on_ascii _ ha)
    | diverge => exact absurd hf ((parse_diverges_iff ha).1 hq _)
  · obtain ⟨v, hb⟩ := billed ((C53_effort ha _ _).1 hm)
    rw [List.replicate_succ] at hb
    obtain ⟨k5, e5, h5⟩ := bill_call (nest_main hg) hb
    obtain ⟨k6, k7, rfl, h6, h7⟩ := bill_and (.lit_ok [o] _) h5
    obtain ⟨w, ns, hr, _⟩ := unclosed_rep hg h (unclosed_run o c n)
    obtain ⟨k8, k9, rfl, h8, h9⟩ := bill_and hr h7
    have := loose_cost hg h (fun _ _ => .not_fail (char_misses h)) n h8
    omega

end

/-! ### Examples -/

theorem nestText_rules : rulesFromPeg c!"main = '(' (main / !')' .)* ')'\n" = .ok (nestedRulesLoose '(' ')') :=
  rulesFromPeg_of 200 (by decide +kernel)

theorem nestText_strict : rulesFromPeg c!"main = '(' (main / !('(' / ')') .)* ')'\n" = .ok (nestedRulesStrict '(' ')') :=
  rulesFromPeg_of 200 (by decide +kernel)

example : parse c!"(a(b))" (nestedRulesLoose '(' ')') = .ok (.rule c!"main" [.val c!"(", .val c!"a",
    .rule c!"main" [.val c!"(", .val c!"b", .val c!")"], .val c!")"]) :=
  (C101_comments (by decide) _ _).2 ⟨by decide, .chr 'a' (.nest (.chr 'b' .nil) .nil), by simp [Inside.Plain], rfl, rfl⟩

example : ∃ t, parse c!"(a(b))" (nestedRulesStrict '(' ')') = .ok t :=
  ⟨_, (C101_strict_same (by decide) _ _).2 ((C101_comments (by decide) _ _).2
    ⟨by decide, .chr 'a' (.nest (.chr 'b' .nil) .nil), by simp [Inside.Plain], rfl, rfl⟩)⟩

example : ¬ ∃ t, parse c!"(a(b)" (nestedRulesLoose '(' ')') = .ok t := by
  rw [C101_counting (by decide)]
  rintro ⟨_, u, h, h'⟩
  cases h
  revert h'
  decide

example : ∃ t, parse c!"(a(b))" (nestedRulesLoose '(' ')') = .ok t := (C101_counting (by decide) _).2 ⟨by decide, _, rfl, by decide⟩

example : ∃ m, Uses c!"(a)" (nestedRulesLoose '(' ')') m ∧ m.calls ≤ 30 :=
  (C101_linear (by decide) ((C101_comments (by decide) _ _).2 ⟨by decide, .chr 'a' .nil, by simp [Inside.Plain], rfl, rfl⟩)).1

example : ∃ m, Uses (List.replicate 100 '(') (nestedRulesStrict '(' ')') m ∧ m.calls ≤ 1110 :=
  C101_strict_linear (by decide) (by decide)

example : ∃ m, Uses (List.replicate 65 '(') (nestedRulesLoose '(' ')') m ∧ 2 ^ 64 ≤ m.calls :=
  (C101_loose_slow (by decide) (by decide) 64).2

end DP
