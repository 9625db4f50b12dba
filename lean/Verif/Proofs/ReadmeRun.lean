/-
The grammars of README.md: what their rules match.
-/
import Verif.Spec.Readme
import Verif.Spec.ReadmeLang
import Verif.Proofs.PegInv
import Verif.Proofs.Bounds
import Verif.Proofs.Alike

namespace DP
open Spec Spec.Readme

section
variable {G : Str → Option Expr}

/-! ### Matching one character, and runs of characters -/

/-- `e` matches one character, those that satisfy `p` -/
def Reads (G : Str → Option Expr) (e : Expr) (p : Char → Bool) (node : Char → Node) : Prop :=
  ∀ s, (∀ c r, s = c :: r → p c = true → Peg G e s (.ok r [node c])) ∧
    ((∀ c r, s = c :: r → p c = false) → Peg G e s .fail)

theorem Reads.inv {e p node} (h : Reads G e p node) {s r ns} (hp : Peg G e s (.ok r ns)) :
    ∃ c, s = c :: r ∧ p c = true ∧ ns = [node c] := by
  cases s with
  | nil => cases peg_det hp ((h []).2 (by simp))
  | cons c q =>
    cases hc : p c with
    | true => cases peg_det hp ((h (c :: q)).1 c q rfl hc); exact ⟨c, rfl, hc, rfl⟩
    | false => cases peg_det hp ((h (c :: q)).2 (by rintro c' r' ⟨⟩; exact hc))

theorem Reads.fail_inv {e p node} (h : Reads G e p node) {s} (hp : Peg G e s .fail) :
    ∀ c r, s = c :: r → p c = false := by
  rintro c r rfl
  cases hc : p c with
  | true => cases peg_det hp ((h (c :: r)).1 c r rfl hc)
  | false => rfl

theorem Reads.star {e p node} (h : Reads G e p node) : ∀ (u : Str) {r}, (∀ c ∈ u, p c = true) →
    Star G e (u ++ r) (u.map fun c => [node c]) r
  | [], _, _ => .nil _
  | c :: u, r, hu => .cons (((h _).1 c (u ++ r) rfl (hu c (by simp)))) (h.star u fun d hd => hu d (by simp [hd]))

theorem flatten_single {α β : Type} (f : α → β) (l : List α) : (l.map fun c => [f c]).flatten = l.map f := by
  induction l with
  | nil => rfl
  | cons a l ih => rw [List.map_cons, List.flatten_cons, ih]; rfl

theorem Reads.rep {e p node} (h : Reads G e p node) (mn : Nat) {u r : Str} (hu : ∀ c ∈ u, p c = true)
    (hr : ∀ c q, r = c :: q → p c = false) (hm : mn ≤ u.length) :
    Peg G (.rep e mn none) (u ++ r) (.ok r (u.map node)) := by
  have := star_rep (h.star u hu (r := r)) ((h r).2 hr) mn (by simpa using hm)
  rwa [flatten_single] at this

theorem Reads.rep_inv {e p node} (h : Reads G e p node) {mn s r ns} (hp : Peg G (.rep e mn none) s (.ok r ns)) :
    ∃ u, s = u ++ r ∧ (∀ c ∈ u, p c = true) ∧ (∀ c q, r = c :: q → p c = false) ∧ mn ≤ u.length ∧ ns = u.map node := by
  obtain ⟨nss, h1, rfl, h2, h3⟩ := inv_rep hp
  have key : ∀ {s nss r}, Star G e s nss r →
      ∃ u, s = u ++ r ∧ (∀ c ∈ u, p c = true) ∧ nss = u.map fun c => [node c] := by
    intro s nss r h1
    induction h1 with
    | nil s => exact ⟨[], rfl, by simp, rfl⟩
    | cons h1 _ ih =>
      obtain ⟨c, rfl, hc, rfl⟩ := h.inv h1
      obtain ⟨u, rfl, hu, rfl⟩ := ih
      refine ⟨c :: u, rfl, ?_, rfl⟩
      intro d hd
      rcases List.mem_cons.mp hd with rfl | hd
      · exact hc
      · exact hu d hd
  obtain ⟨u, rfl, hu, rfl⟩ := key h1
  refine ⟨u, rfl, hu, h.fail_inv h3, by simpa using h2, flatten_single _ _⟩

theorem Reads.rep_fail {e p node} (h : Reads G e p node) {mn : Nat} (hm : 0 < mn) {s : Str}
    (hs : ∀ c q, s = c :: q → p c = false) : Peg G (.rep e mn none) s .fail :=
  .rep_few (by simp) hm ((h s).2 hs)

theorem reads_class (cs rs) (p : Char → Bool) (hp : ∀ c, p c = true ↔ InClass cs rs c) :
    Reads G (.simple (.mtch cs rs)) p (fun c => .val [c]) := by
  intro s
  constructor
  · rintro c r rfl hc
    exact .class_ok _ _ _ _ ((hp c).1 hc)
  · intro h
    cases s with
    | nil => exact .class_end _ _
    | cons c r =>
      refine .class_fail _ _ _ _ fun hc => ?_
      have := h c r rfl
      rw [(hp c).2 hc] at this
      cases this

theorem reads_lit (d : Char) : Reads G (.simple (.literal [d])) (fun c => c == d) (fun c => .val [c]) := by
  intro s
  constructor
  · rintro c r rfl hc
    have : c = d := by simpa using hc
    subst this
    exact .lit_ok [c] r
  · intro h
    refine .lit_fail _ _ ?_
    rintro ⟨t, rfl⟩
    have := h d t rfl
    simp at this

theorem Reads.call {n e p node} (hg : G n = some e) (h : Reads G e p node) :
    Reads G (.ruleName n) p (fun c => .rule n [node c]) := by
  intro s
  exact ⟨fun c r hs hc => .call_ok hg ((h s).1 c r hs hc), fun hf => .call_fail hg ((h s).2 hf)⟩

theorem reads_or {e1 e2 p1 p2 n1 n2} (h1 : Reads G e1 p1 n1) (h2 : Reads G e2 p2 n2) :
    Reads G (.or [e1, e2]) (fun c => p1 c || p2 c) (fun c => if p1 c then n1 c else n2 c) := by
  intro s
  constructor
  · rintro c r rfl hc
    cases h : p1 c with
    | true =>
      have := Peg.or_ok (es := [e2]) ((h1 _).1 c r rfl h)
      simpa [h] using this
    | false =>
      refine .or_next ((h1 _).2 ?_) (.or_ok ?_)
      · rintro c' r' ⟨⟩; exact h
      · have : p2 c = true := by simpa [h] using hc
        have := (h2 _).1 c r rfl this
        simpa [h] using this
  · intro h
    refine .or_next ((h1 s).2 fun c r hs => ?_) (.or_next ((h2 s).2 fun c r hs => ?_) (.or_nil _))
    · have := h c r hs; simp only [Bool.or_eq_false_iff] at this; exact this.1
    · have := h c r hs; simp only [Bool.or_eq_false_iff] at this; exact this.2

theorem Reads.congr {e p p' n n'} (h : Reads G e p n) (hp : ∀ c, p c = p' c) (hn : ∀ c, p c = true → n c = n' c) :
    Reads G e p' n' := by
  intro s
  constructor
  · intro c r hs hc
    rw [← hp] at hc
    rw [← hn c hc]
    exact (h s).1 c r hs hc
  · intro hf
    exact (h s).2 fun c r hs => by rw [hp]; exact hf c r hs

end

theorem char_le_iff {a b : Char} : a ≤ b ↔ a.toNat ≤ b.toNat := Iff.rfl

theorem inClass_digit (c : Char) : decide (Digit c) = true ↔ InClass [] [('0', '9')] c := by
  simp [Digit, InClass, char_le_iff]

theorem inClass_letter (c : Char) : decide (Letter c) = true ↔ InClass [] [('a', 'z'), ('A', 'Z')] c := by
  simp [Letter, InClass, char_le_iff]

/-! ### The basic example -/

def basicRules : SetOfRules := ⟨[
  (c!"number", .simple (.mtch [] [('0', '9')])),
  (c!"letter_or_num", .or [.ruleName c!"letter", .ruleName c!"number"]),
  (c!"letter", .simple (.mtch [] [('a', 'z'), ('A', 'Z')])),
  (c!"main", .and [.ruleName c!"letter", .rep (.ruleName c!"letter_or_num") 1 none])]⟩

theorem basic_letter : Reads (denotes basicRules) (.ruleName c!"letter") (fun c => decide (Letter c))
    (fun c => .rule c!"letter" [.val [c]]) :=
  (reads_class _ _ _ inClass_letter).call rfl

theorem basic_number : Reads (denotes basicRules) (.ruleName c!"number") (fun c => decide (Digit c))
    (fun c => .rule c!"number" [.val [c]]) :=
  (reads_class _ _ _ inClass_digit).call rfl

theorem basic_word : Reads (denotes basicRules) (.ruleName c!"letter_or_num")
    (fun c => decide (Letter c ∨ Digit c)) wordNode := by
  refine (Reads.call (e := .or [.ruleName c!"letter", .ruleName c!"number"]) rfl (reads_or basic_letter basic_number)).congr
    (fun c => by simp) (fun c _ => ?_)
  by_cases h : Letter c <;> simp [wordNode, h]

theorem basic_main (s : Str) (t : Node) :
    Peg (denotes basicRules) (.ruleName c!"main") s (.ok [] [t]) ↔
      ∃ c r, s = c :: r ∧ Letter c ∧ r ≠ [] ∧ (∀ d ∈ r, Letter d ∨ Digit d) ∧
        t = .rule c!"main" (.rule c!"letter" [.val [c]] :: r.map wordNode) := by
  have hg : denotes basicRules c!"main" =
    some (.and [.ruleName c!"letter", .rep (.ruleName c!"letter_or_num") 1 none]) := rfl
  constructor
  · intro h
    obtain ⟨cs, h1, h2⟩ := inv_call hg h
    cases h1
    obtain ⟨q, n1, n2, h3, h4, rfl⟩ := inv_and h2
    obtain ⟨q', n3, n4, h5, h6, rfl⟩ := inv_and h4
    obtain ⟨rfl, rfl⟩ := inv_and_nil h6
    obtain ⟨c, rfl, hc, rfl⟩ := basic_letter.inv h3
    obtain ⟨u, rfl, hu, _, hl, rfl⟩ := basic_word.rep_inv h5
    refine ⟨c, u, by simp, by simpa using hc, by rintro rfl; simp at hl, fun d hd => by simpa using hu d hd, by simp⟩
  · rintro ⟨c, r, rfl, hc, hr, hu, rfl⟩
    have h1 := (basic_letter (c :: r)).1 c r rfl (by simpa using hc)
    have h2 := basic_word.rep 1 (u := r) (r := []) (fun d hd => by simpa using hu d hd) (by simp)
      (by cases r with | nil => exact absurd rfl hr | cons => simp)
    rw [List.append_nil] at h2
    have := Peg.call_ok hg (.and_ok h1 (.and_ok h2 (.and_nil _)))
    simpa using this

/-! ### The alternatives of a choice -/

def helloRules : SetOfRules := ⟨[(c!"main", .or [.simple (.literal c!"hello"),
  .simple (.literal c!"hello world"), .simple (.literal c!"hola")])]⟩

theorem hello_main (s : Str) (t : Node) :
    Peg (denotes helloRules) (.ruleName c!"main") s (.ok [] [t]) ↔
      ((s = c!"hello" ∨ s = c!"hola") ∧ t = .rule c!"main" [.val s]) := by
  have hg : denotes helloRules c!"main" = some (.or [.simple (.literal c!"hello"),
    .simple (.literal c!"hello world"), .simple (.literal c!"hola")]) := rfl
  constructor
  · intro h
    obtain ⟨cs, h1, h2⟩ := inv_call hg h
    cases h1
    rcases inv_or_cons h2 with h3 | ⟨h3, h4⟩
    · obtain ⟨rfl, rfl⟩ := inv_lit h3
      exact ⟨.inl rfl, rfl⟩
    · rcases inv_or_cons h4 with h5 | ⟨_, h6⟩
      · obtain ⟨rfl, rfl⟩ := inv_lit h5
        exact absurd (peg_det h3 (Peg.lit_ok c!"hello" c!" world")) (by simp)
      · rcases inv_or_cons h6 with h7 | ⟨_, h8⟩
        · obtain ⟨rfl, rfl⟩ := inv_lit h7
          exact ⟨.inr rfl, rfl⟩
        · exact (inv_or_nil h8).elim
  · rintro ⟨rfl | rfl, rfl⟩
    · exact .call_ok hg (.or_ok (.lit_ok c!"hello" []))
    · exact .call_ok hg (.or_next (.lit_fail _ _ (by decide)) (.or_next (.lit_fail _ _ (by decide))
        (.or_ok (.lit_ok c!"hola" []))))

/-! ### Everything up to an `a` -/

def untilRules : SetOfRules := ⟨[(c!"main", .and [.rep (.and [.not (.simple (.literal c!"a")), .simple .dot]) 0 none,
  .simple (.literal c!"a")])]⟩

theorem reads_but {G} (d : Char) : Reads G (.and [.not (.simple (.literal [d])), .simple .dot])
    (fun c => c != d) (fun c => .val [c]) := by
  intro s
  constructor
  · rintro c r rfl hc
    refine .and_ok (.not_fail (((reads_lit d) _).2 ?_)) (.and_ok (.dot_ok c r) (.and_nil _))
    rintro c' r' ⟨⟩
    simpa using hc
  · intro h
    cases s with
    | nil => exact .and_tail_fail (.not_fail (.lit_fail _ _ (by simp))) (.and_fail .dot_end)
    | cons c r =>
      have hc : c = d := by simpa using h c r rfl
      subst hc
      exact .and_fail (.not_ok (.lit_ok [c] r))

theorem until_main (s : Str) (t : Node) :
    Peg (denotes untilRules) (.ruleName c!"main") s (.ok [] [t]) ↔
      ∃ w, s = w ++ c!"a" ∧ 'a' ∉ w ∧ t = .rule c!"main" (chars s) := by
  have hg : denotes untilRules c!"main" = some (.and [.rep (.and [.not (.simple (.literal c!"a")), .simple .dot]) 0 none,
    .simple (.literal c!"a")]) := rfl
  constructor
  · intro h
    obtain ⟨cs, h1, h2⟩ := inv_call hg h
    cases h1
    obtain ⟨q, n1, n2, h3, h4, rfl⟩ := inv_and h2
    obtain ⟨q', n3, n4, h5, h6, rfl⟩ := inv_and h4
    obtain ⟨rfl, rfl⟩ := inv_and_nil h6
    obtain ⟨rfl, rfl⟩ := inv_lit h5
    obtain ⟨u, rfl, hu, _, _, rfl⟩ := (reads_but 'a').rep_inv h3
    refine ⟨u, by simp, fun hm => ?_, by simp [chars]⟩
    have := hu _ hm
    simp at this
  · rintro ⟨w, rfl, hw, rfl⟩
    have h1 := (reads_but (G := denotes untilRules) 'a').rep 0 (u := w) (r := c!"a")
      (fun c hc => by
        have : c ≠ 'a' := by rintro rfl; exact hw hc
        simpa using this) (by rintro c q ⟨⟩; rfl) (by simp)
    have := Peg.call_ok hg (.and_ok h1 (.and_ok (.lit_ok c!"a" []) (.and_nil _)))
    simpa [chars] using this

/-! ### Parentheses -/

def unbalancedRules : SetOfRules := ⟨[(c!"main", .or [.and [.simple (.literal c!"("), .ruleName c!"main",
  .or [.simple (.literal c!")"), .simple (.error c!"unbalanced parenthesis")]], .simple (.literal c!"hello")])]⟩

abbrev unbalancedMain : Expr := .or [.and [.simple (.literal c!"("), .ruleName c!"main",
  .or [.simple (.literal c!")"), .simple (.error c!"unbalanced parenthesis")]], .simple (.literal c!"hello")]

theorem unbalanced_get : denotes unbalancedRules c!"main" = some unbalancedMain := rfl

theorem parens_zero (m : Nat) : parens 0 m = c!"hello" ++ List.replicate m ')' := rfl

theorem parens_succ (n m : Nat) : parens (n + 1) m = '(' :: parens n m := by
  simp [parens, List.replicate_succ]

theorem parens_close (n m : Nat) : parens n (m + 1) = parens n m ++ c!")" := by
  simp [parens, List.replicate_succ']

theorem unbalanced_ok (n : Nat) : ∀ r, Peg (denotes unbalancedRules) (.ruleName c!"main") (parens n n ++ r) (.ok r [nested n]) := by
  induction n with
  | zero =>
    intro r
    exact .call_ok unbalanced_get (.or_next (.and_fail (.lit_fail _ _ (by simp [parens]))) (.or_ok (.lit_ok c!"hello" r)))
  | succ n ih =>
    intro r
    have h1 := ih (c!")" ++ r)
    rw [← List.append_assoc, ← parens_close] at h1
    rw [parens_succ]
    exact .call_ok unbalanced_get (.or_ok (.and_ok (.lit_ok c!"(" _) (.and_ok h1 (.and_ok (.or_ok (.lit_ok c!")" r)) (.and_nil _)))))

theorem unbalanced_inv : ∀ (k : Nat) {s r ns}, s.length ≤ k →
    Peg (denotes unbalancedRules) (.ruleName c!"main") s (.ok r ns) → ∃ n, s = parens n n ++ r ∧ ns = [nested n] := by
  intro k
  induction k with
  | zero =>
    intro s r ns hk h
    cases List.length_eq_zero_iff.mp (Nat.le_zero.mp hk)
    obtain ⟨cs, rfl, h2⟩ := inv_call unbalanced_get h
    rcases inv_or_cons h2 with h3 | ⟨_, h4⟩
    · obtain ⟨q, n1, n2, h5, h4, rfl⟩ := inv_and h3
      cases (inv_lit h5).1
    · rcases inv_or_cons h4 with h5 | ⟨_, h6⟩
      · cases (inv_lit h5).1
      · exact (inv_or_nil h6).elim
  | succ k ih =>
    intro s r ns hk h
    obtain ⟨cs, rfl, h2⟩ := inv_call unbalanced_get h
    rcases inv_or_cons h2 with h3 | ⟨_, h4⟩
    · obtain ⟨q, n1, n2, h11, h4, rfl⟩ := inv_and h3
      obtain ⟨rfl, rfl⟩ := inv_lit h11
      obtain ⟨q', n3, n4, h5, h6, rfl⟩ := inv_and h4
      obtain ⟨n, rfl, rfl⟩ := ih (by simp at hk; omega) h5
      obtain ⟨q'', n5, n6, h7, h8, rfl⟩ := inv_and h6
      obtain ⟨rfl, rfl⟩ := inv_and_nil h8
      rcases inv_or_cons h7 with h9 | ⟨_, h9⟩
      · obtain ⟨rfl, rfl⟩ := inv_lit h9
        refine ⟨n + 1, ?_, rfl⟩
        rw [parens_succ, parens_close]
        simp
      · rcases inv_or_cons h9 with h10 | ⟨_, h10⟩
        · cases h10
        · exact (inv_or_nil h10).elim
    · rcases inv_or_cons h4 with h5 | ⟨_, h6⟩
      · obtain ⟨rfl, rfl⟩ := inv_lit h5
        exact ⟨0, rfl, rfl⟩
      · exact (inv_or_nil h6).elim

theorem unbalanced_crit (n : Nat) : ∀ {m q}, m < n → q.head? ≠ some ')' →
    Peg (denotes unbalancedRules) (.ruleName c!"main") (parens n m ++ q) (.crit (.custom c!"unbalanced parenthesis") q) := by
  induction n with
  | zero => intro m q h; omega
  | succ n ih =>
    intro m q hm hq
    rw [parens_succ]
    rcases Nat.lt_or_ge m n with h | h
    · exact .call_crit unbalanced_get (.or_crit (.and_tail_crit (.lit_ok c!"(" _) (.and_crit (ih h hq))))
    · cases (show m = n by omega)
      refine .call_crit unbalanced_get (.or_crit (.and_tail_crit (.lit_ok c!"(" _)
        (.and_tail_crit (unbalanced_ok _ q) (.and_crit (.or_next (.lit_fail _ _ ?_) (.or_crit (.error _ _)))))))
      rintro ⟨t, rfl⟩
      exact hq rfl

theorem unbalanced_crit_inv : ∀ (k : Nat) {s d q}, s.length ≤ k →
    Peg (denotes unbalancedRules) (.ruleName c!"main") s (.crit d q) →
    d = .custom c!"unbalanced parenthesis" ∧ ∃ n m, m < n ∧ s = parens n m ++ q ∧ q.head? ≠ some ')' := by
  intro k
  induction k with
  | zero =>
    intro s d q hk h
    cases List.length_eq_zero_iff.mp (Nat.le_zero.mp hk)
    have : Peg (denotes unbalancedRules) (.ruleName c!"main") [] .fail :=
      .call_fail unbalanced_get (.or_next (.and_fail (.lit_fail _ _ (by simp))) (.or_next (.lit_fail _ _ (by simp)) (.or_nil _)))
    cases peg_det h this
  | succ k ih =>
    intro s d q hk h
    cases h with
    | call_missing hg => rw [unbalanced_get] at hg; cases hg
    | call_crit hg h =>
      rw [unbalanced_get] at hg; cases hg
      cases h with
      | or_next _ h =>
        cases h with
        | or_crit h => cases h
        | or_next _ h => cases h
      | or_crit h =>
        cases h with
        | and_crit h => cases h
        | and_tail_crit h1 h2 =>
          obtain ⟨rfl, rfl⟩ := inv_lit h1
          have hl : ∀ {x : Str}, (c!"(" ++ x).length ≤ k + 1 → x.length ≤ k := by intro x h; simp at h; omega
          cases h2 with
          | and_crit h =>
            obtain ⟨h3, n, m, h4, rfl, h5⟩ := ih (hl hk) h
            exact ⟨h3, n + 1, m, by omega, by rw [parens_succ]; rfl, h5⟩
          | and_tail_crit h2 h3 =>
            obtain ⟨n, rfl, rfl⟩ := unbalanced_inv k (hl hk) h2
            cases h3 with
            | and_tail_crit _ h => cases h
            | and_crit h =>
              cases h with
              | or_crit h => cases h
              | or_next h4 h5 =>
                cases h5 with
                | or_next _ h => cases h
                | or_crit h =>
                  cases h
                  refine ⟨rfl, n + 1, n, by omega, by rw [parens_succ]; rfl, fun hq => ?_⟩
                  cases q with
                  | nil => cases hq
                  | cons c q =>
                    cases hq
                    cases peg_det h4 (Peg.lit_ok c!")" q)

/-! ### The second example -/

def secondRules : SetOfRules := ⟨[
  (c!"d_or_z", .or [.simple (.literal c!"d"), .simple (.literal c!"z")]),
  (c!"b_and_c", .and [.simple (.literal c!"b"), .simple (.literal c!"c")]),
  (c!"main", .and [.simple (.literal c!"a"), .or [.and [.simple (.literal c!"bc"), .simple (.literal c!"c")],
    .simple (.literal c!"bcdd"), .and [.ruleName c!"b_and_c", .ruleName c!"d_or_z"]]])]⟩

theorem inv_two {G e e' s r ns} (h : Peg G (.and [e, e']) s (.ok r ns)) :
    ∃ q n1 n2, Peg G e s (.ok q n1) ∧ Peg G e' q (.ok r n2) ∧ ns = n1 ++ n2 := by
  obtain ⟨q, n1, n2, h1, h2, rfl⟩ := inv_and h
  obtain ⟨q', n3, n4, h3, h4, rfl⟩ := inv_and h2
  obtain ⟨rfl, rfl⟩ := inv_and_nil h4
  exact ⟨q, n1, n3, h1, h3, by simp⟩

theorem second_inv {s : Str} {t : Node} (h : Peg (denotes secondRules) (.ruleName c!"main") s (.ok [] [t])) :
    s ∈ [c!"abcc", c!"abcdd", c!"abcd", c!"abcz"] := by
  obtain ⟨cs, _, h1⟩ := inv_call (e := .and [.simple (.literal c!"a"), .or [.and [.simple (.literal c!"bc"),
    .simple (.literal c!"c")], .simple (.literal c!"bcdd"), .and [.ruleName c!"b_and_c", .ruleName c!"d_or_z"]]]) rfl h
  obtain ⟨q, n1, n2, h2, h3, _⟩ := inv_two h1
  obtain ⟨rfl, _⟩ := inv_lit h2
  obtain ⟨e, he, h4⟩ := inv_or h3
  simp only [List.mem_cons, List.not_mem_nil, or_false] at he
  rcases he with rfl | rfl | rfl
  · obtain ⟨q, n1, n2, h5, h6, _⟩ := inv_two h4
    rw [(inv_lit h5).1, (inv_lit h6).1]; decide
  · rw [(inv_lit h4).1]; decide
  · obtain ⟨q, n1, n2, h5, h6, _⟩ := inv_two h4
    obtain ⟨_, _, h7⟩ := inv_call (e := .and [.simple (.literal c!"b"), .simple (.literal c!"c")]) rfl h5
    obtain ⟨q', _, _, h8, h9, _⟩ := inv_two h7
    obtain ⟨_, _, h10⟩ := inv_call (e := .or [.simple (.literal c!"d"), .simple (.literal c!"z")]) rfl h6
    obtain ⟨e, he, h11⟩ := inv_or h10
    simp only [List.mem_cons, List.not_mem_nil, or_false] at he
    rw [(inv_lit h8).1, (inv_lit h9).1]
    rcases he with rfl | rfl <;> (rw [(inv_lit h11).1]; decide)

end DP
