/-
C96: words and keywords. Scanning a text with `main = (kw / id / .)*`, `id = [..]+` and a choice of keywords
(src/parser/expression/mod.rs:231-330, src/parser/atom/mod.rs).
-/
import Verif.Props.Split
import Verif.Props.Syntax

namespace DP
open Spec

/-- a word or another character -/
inductive Tok
  | word (w : Str)
  | other (c : Char)

/-- The words of a text are its longest runs of letters, the other characters stand for themselves. `L` says what a letter is. -/
inductive Scanned (L : Char → Prop) : Str → List Tok → Prop
  | nil : Scanned L [] []
  | word {w r ts} : w ≠ [] → (∀ c ∈ w, L c) → (∀ c ∈ r.head?, ¬ L c) → Scanned L r ts → Scanned L (w ++ r) (.word w :: ts)
  | other {c r ts} : ¬ L c → Scanned L r ts → Scanned L (c :: r) (.other c :: ts)

/-- every text can be scanned -/
theorem scanned_exists (L : Char → Prop) : ∀ n (s : Str), s.length ≤ n → ∃ ts, Scanned L s ts := by
  intro n
  induction n with
  | zero =>
    intro s h
    rw [List.length_eq_zero_iff.1 (Nat.le_zero.1 h)]
    exact ⟨[], .nil⟩
  | succ n ih =>
    intro s h
    have run : ∀ s : Str, ∃ w r, s = w ++ r ∧ (∀ c ∈ w, L c) ∧ ∀ c ∈ r.head?, ¬ L c := by
      intro s
      induction s with
      | nil => exact ⟨[], [], rfl, by simp, by simp⟩
      | cons c s ih =>
        by_cases hc : L c
        · obtain ⟨w, r, rfl, h1, h2⟩ := ih
          refine ⟨c :: w, r, rfl, ?_, h2⟩
          intro d hd
          rcases List.mem_cons.1 hd with rfl | hd
          exacts [hc, h1 d hd]
        · exact ⟨[], c :: s, rfl, by simp, by simpa using hc⟩
    cases s with
    | nil => exact ⟨[], .nil⟩
    | cons c s =>
      by_cases hc : L c
      · obtain ⟨w, r, rfl, h1, h2⟩ := run s
        simp only [List.length_cons, List.length_append] at h
        obtain ⟨ts, ht⟩ := ih r (by omega)
        refine ⟨.word (c :: w) :: ts, .word (w := c :: w) (by simp) ?_ h2 ht⟩
        intro d hd
        rcases List.mem_cons.1 hd with rfl | hd
        exacts [hc, h1 d hd]
      · simp only [List.length_cons] at h
        obtain ⟨ts, ht⟩ := ih s (by omega)
        exact ⟨.other c :: ts, .other hc ht⟩

/-- scanning loses nothing -/
theorem scanned_text {L : Char → Prop} {s : Str} {ts : List Tok} (h : Scanned L s ts) :
    ts.flatMap (fun | .word w => w | .other c => [c]) = s := by
  induction h with
  | nil => rfl
  | word _ _ _ _ ih => rw [List.flatMap_cons, ih]
  | other _ _ ih => rw [List.flatMap_cons, ih]; rfl

section
variable (cs : Str) (rs : List (Char × Char))

/-- the letters -/
abbrev letterExpr : Expr := .simple (.mtch cs rs)

/-- `k1 ![..] / k2 ![..] / ...` -/
def guardedExpr (ks : List Str) : Expr := .or (ks.map fun k => .and [.simple (.literal k), .not (letterExpr cs rs)])

/-- `(k1 / k2 / ...) ![..]` -/
def factoredExpr (ks : List Str) : Expr := .and [.or (ks.map fun k => .simple (.literal k)), .not (letterExpr cs rs)]

/-- `main = (kw / id / .)*`, `id = [..]+`, and `kw` -/
def wordRules (kw : Expr) : SetOfRules :=
  ⟨[(c!"kw", kw), (c!"id", .rep (letterExpr cs rs) 1 none),
    (c!"main", .rep (.or [.ruleName c!"kw", .ruleName c!"id", .simple .dot]) 0 none)]⟩

end

open Classical in
/-- the tree of a word: a keyword in one value, or an identifier with its letters -/
noncomputable def tokNode (P : Str → Prop) : Tok → Node
  | .word w => if P w then .rule c!"kw" [.val w] else .rule c!"id" (w.map fun c => .val [c])
  | .other c => .val [c]

section
variable {cs : Str} {rs : List (Char × Char)} {G : Str → Option Expr}

/-- `kw` accepts the words in `P`, and nothing where no word begins -/
structure KwIs (G : Str → Option Expr) (L : Char → Prop) (kw : Expr) (P : Str → Prop) : Prop where
  yes : ∀ w r, w ≠ [] → (∀ c ∈ w, L c) → (∀ c ∈ r.head?, ¬ L c) → P w → Peg G kw (w ++ r) (.ok r [.val w])
  no : ∀ w r, w ≠ [] → (∀ c ∈ w, L c) → (∀ c ∈ r.head?, ¬ L c) → ¬ P w → Peg G kw (w ++ r) .fail
  off : ∀ r, (∀ c ∈ r.head?, ¬ L c) → Peg G kw r .fail

theorem letter_off {r : Str} (h : ∀ c ∈ r.head?, ¬ InClass cs rs c) : Peg G (letterExpr cs rs) r .fail := by
  cases r with
  | nil => exact .class_end _ _
  | cons c r => exact .class_fail _ _ _ _ (h c rfl)

theorem letters_peg {r : Str} (h : ∀ c ∈ r.head?, ¬ InClass cs rs c) : ∀ w : Str, (∀ c ∈ w, InClass cs rs c) →
    Peg G (.rep (letterExpr cs rs) 0 none) (w ++ r) (.ok r (w.map fun c => .val [c]))
  | [], _ => .rep_stop (by simp) (letter_off h)
  | c :: w, hw => by
    have ih := letters_peg h w fun d hd => hw d (List.mem_cons_of_mem _ hd)
    exact .rep_more (mn := 0) (mx := none) (by simp) (.class_ok _ _ c _ (hw c List.mem_cons_self)) ih

theorem id_peg {w r : Str} (hn : w ≠ []) (hw : ∀ c ∈ w, InClass cs rs c) (h : ∀ c ∈ r.head?, ¬ InClass cs rs c) :
    Peg G (.rep (letterExpr cs rs) 1 none) (w ++ r) (.ok r (w.map fun c => .val [c])) := by
  obtain ⟨c, w, rfl⟩ := List.exists_cons_of_ne_nil hn
  exact .rep_more (mn := 1) (mx := none) (by simp) (.class_ok _ _ c _ (hw c List.mem_cons_self))
    (letters_peg h w fun d hd => hw d (List.mem_cons_of_mem _ hd))

/-- the whole text -/
theorem scan_peg {kw : Expr} {P : Str → Prop} (hk : G c!"kw" = some kw) (hi : G c!"id" = some (.rep (letterExpr cs rs) 1 none))
    (hP : KwIs G (InClass cs rs) kw P) {s : Str} {ts : List Tok} (h : Scanned (InClass cs rs) s ts) :
    Peg G (.rep (.or [.ruleName c!"kw", .ruleName c!"id", .simple .dot]) 0 none) s (.ok [] (ts.map (tokNode P))) := by
  have idOff : ∀ r : Str, (∀ c ∈ r.head?, ¬ InClass cs rs c) → Peg G (.ruleName c!"id") r .fail := fun r hr =>
    .call_fail hi (.rep_few (by simp) (by simp) (letter_off hr))
  induction h with
  | nil =>
    exact .rep_stop (by simp) (.or_next (.call_fail hk (hP.off [] (by simp))) (.or_next (idOff [] (by simp)) (.or_next .dot_end (.or_nil _))))
  | @word w r ts hn hw hr _ ih =>
    by_cases hp : P w
    · have h1 := Peg.rep_more (mn := 0) (mx := none) (by simp)
        (.or_ok (es := [.ruleName c!"id", .simple .dot]) (.call_ok hk (hP.yes w r hn hw hr hp))) ih
      simpa [tokNode, hp] using h1
    · have h1 := Peg.rep_more (mn := 0) (mx := none) (by simp)
        (.or_next (.call_fail hk (hP.no w r hn hw hr hp)) (.or_ok (es := [.simple .dot]) (.call_ok hi (id_peg hn hw hr)))) ih
      simpa [tokNode, hp] using h1
  | @other c r ts hc _ ih =>
    have ho : ∀ d ∈ (c :: r).head?, ¬ InClass cs rs d := by simpa using hc
    have h1 := Peg.rep_more (mn := 0) (mx := none) (by simp)
      (.or_next (.call_fail hk (hP.off _ ho)) (.or_next (idOff _ ho) (.or_ok (es := []) (.dot_ok c r)))) ih
    simpa [tokNode] using h1

/-! ### Keywords -/

/-- a literal of letters begins a text where a word stands exactly if it begins the word -/
theorem prefix_word {L : Char → Prop} {k w r : Str} (hk : ∀ c ∈ k, L c) (hr : ∀ c ∈ r.head?, ¬ L c) : k <+: w ++ r ↔ k <+: w := by
  constructor
  · intro h
    rcases List.prefix_or_prefix_of_prefix h (List.prefix_append w r) with h1 | h1
    · exact h1
    · obtain ⟨t, rfl⟩ := h1
      rw [List.prefix_append_right_inj] at h
      cases t with
      | nil => simp
      | cons c t =>
        obtain ⟨x, rfl⟩ := h
        exact absurd (hk c (by simp)) (hr c rfl)
  · exact fun h => h.trans (List.prefix_append _ _)

theorem prefix_off {L : Char → Prop} {k r : Str} (hn : k ≠ []) (hk : ∀ c ∈ k, L c) (hr : ∀ c ∈ r.head?, ¬ L c) : ¬ k <+: r := by
  rintro ⟨t, rfl⟩
  obtain ⟨c, k, rfl⟩ := List.exists_cons_of_ne_nil hn
  exact hr c rfl (hk c List.mem_cons_self)

/-- a keyword that begins a longer word is followed by a letter -/
theorem guard_fails {k t r : Str} (ht : t ≠ []) (hw : ∀ c ∈ k ++ t, InClass cs rs c) :
    Peg G (.not (letterExpr cs rs)) (t ++ r) .fail := by
  obtain ⟨c, t, rfl⟩ := List.exists_cons_of_ne_nil ht
  exact .not_ok (.class_ok _ _ c _ (hw c (by simp)))

theorem guarded_is {ks : List Str} (hks : ∀ k ∈ ks, k ≠ [] ∧ ∀ c ∈ k, InClass cs rs c) :
    KwIs G (InClass cs rs) (guardedExpr cs rs ks) (· ∈ ks) := by
  refine ⟨?_, ?_, ?_⟩
  · intro w r hn hw hr hm
    unfold guardedExpr
    induction ks with
    | nil => cases hm
    | cons k ks ih =>
      by_cases e : k = w
      · subst e
        exact .or_ok (.and_ok (.lit_ok k r) (.and_ok (.not_fail (letter_off hr)) (.and_nil _)))
      · refine .or_next ?_ (ih (fun k' h' => hks k' (List.mem_cons_of_mem _ h')) ((List.mem_cons.1 hm).resolve_left fun h => e h.symm))
        by_cases hp : k <+: w
        · obtain ⟨t, rfl⟩ := hp
          rw [List.append_assoc]
          exact .and_tail_fail (.lit_ok k _) (.and_fail (guard_fails (by rintro rfl; simp at e) hw))
        · exact .and_fail (.lit_fail _ _ fun h => hp ((prefix_word (hks k List.mem_cons_self).2 hr).1 h))
  · intro w r hn hw hr hm
    unfold guardedExpr
    induction ks with
    | nil => exact .or_nil _
    | cons k ks ih =>
      refine .or_next ?_ (ih (fun k' h' => hks k' (List.mem_cons_of_mem _ h')) fun h => hm (List.mem_cons_of_mem _ h))
      by_cases hp : k <+: w
      · obtain ⟨t, rfl⟩ := hp
        rw [List.append_assoc]
        exact .and_tail_fail (.lit_ok k _) (.and_fail (guard_fails (by rintro rfl; simp at hm) hw))
      · exact .and_fail (.lit_fail _ _ fun h => hp ((prefix_word (hks k List.mem_cons_self).2 hr).1 h))
  · intro r hr
    unfold guardedExpr
    induction ks with
    | nil => exact .or_nil _
    | cons k ks ih =>
      have h := hks k List.mem_cons_self
      exact .or_next (.and_fail (.lit_fail _ _ (prefix_off h.1 h.2 hr))) (ih fun k' h' => hks k' (List.mem_cons_of_mem _ h'))

/-- the word is listed, and no earlier keyword begins it -/
def FirstOf (ks : List Str) (w : Str) : Prop := ∃ before after, ks = before ++ w :: after ∧ ∀ k ∈ before, ¬ k <+: w

theorem first_choice {L : Char → Prop} {ks : List Str} (hks : ∀ k ∈ ks, k ≠ [] ∧ ∀ c ∈ k, L c) {w r : Str} (hr : ∀ c ∈ r.head?, ¬ L c) :
    (∃ k t, w = k ++ t ∧ FirstOf ks w = (t = []) ∧ Peg G (.or (ks.map fun k => .simple (.literal k))) (w ++ r) (.ok (t ++ r) [.val k])) ∨
    (¬ FirstOf ks w ∧ Peg G (.or (ks.map fun k => .simple (.literal k))) (w ++ r) .fail) := by
  induction ks with
  | nil =>
    refine Or.inr ⟨?_, .or_nil _⟩
    rintro ⟨b, a, h, _⟩
    cases b <;> cases h
  | cons k ks ih =>
    by_cases hp : k <+: w
    · obtain ⟨t, rfl⟩ := hp
      refine Or.inl ⟨k, t, rfl, ?_, ?_⟩
      · refine propext ⟨?_, ?_⟩
        · rintro ⟨b, a, h, hb⟩
          cases b with
          | nil => simp only [List.nil_append, List.cons.injEq] at h; simpa using h.1
          | cons k' b =>
            simp only [List.cons_append, List.cons.injEq] at h
            exact absurd (List.prefix_append k t) (h.1 ▸ hb k' List.mem_cons_self)
        · rintro rfl
          exact ⟨[], ks, by simp, by simp⟩
      · rw [List.append_assoc]
        exact .or_ok (.lit_ok k _)
    · have hf : Peg G (.simple (.literal k)) (w ++ r) .fail :=
        .lit_fail _ _ fun h => hp ((prefix_word (hks k List.mem_cons_self).2 hr).1 h)
      have hF : FirstOf (k :: ks) w ↔ FirstOf ks w := by
        constructor
        · rintro ⟨b, a, h, hb⟩
          cases b with
          | nil =>
            simp only [List.nil_append, List.cons.injEq] at h
            exact absurd (h.1 ▸ List.prefix_rfl) hp
          | cons k' b =>
            simp only [List.cons_append, List.cons.injEq] at h
            exact ⟨b, a, h.2, fun x hx => hb x (List.mem_cons_of_mem _ hx)⟩
        · rintro ⟨b, a, rfl, hb⟩
          refine ⟨k :: b, a, rfl, ?_⟩
          intro x hx
          rcases List.mem_cons.1 hx with rfl | hx
          exacts [hp, hb x hx]
      rw [hF]
      rcases ih (fun k' h' => hks k' (List.mem_cons_of_mem _ h')) with ⟨k', t, h1, h2, h3⟩ | ⟨h1, h2⟩
      · exact Or.inl ⟨k', t, h1, h2, .or_next hf h3⟩
      · exact Or.inr ⟨h1, .or_next hf h2⟩

theorem factored_is {ks : List Str} (hks : ∀ k ∈ ks, k ≠ [] ∧ ∀ c ∈ k, InClass cs rs c) :
    KwIs G (InClass cs rs) (factoredExpr cs rs ks) (FirstOf ks) := by
  refine ⟨?_, ?_, ?_⟩
  · intro w r hn hw hr hm
    rcases first_choice (G := G) hks (w := w) hr with ⟨k, t, rfl, h2, h3⟩ | ⟨h1, _⟩
    · rw [h2] at hm
      subst hm
      rw [List.append_nil] at h3 ⊢
      exact .and_ok h3 (.and_ok (.not_fail (letter_off hr)) (.and_nil _))
    · exact absurd hm h1
  · intro w r hn hw hr hm
    rcases first_choice (G := G) hks (w := w) hr with ⟨k, t, rfl, h2, h3⟩ | ⟨_, h2⟩
    · rw [h2] at hm
      exact .and_tail_fail h3 (.and_fail (guard_fails hm hw))
    · exact .and_fail h2
  · intro r hr
    refine .and_fail ?_
    induction ks with
    | nil => exact .or_nil _
    | cons k ks ih =>
      have h := hks k List.mem_cons_self
      exact .or_next (.lit_fail _ _ (prefix_off h.1 h.2 hr)) (ih fun k' h' => hks k' (List.mem_cons_of_mem _ h'))

end

theorem word_bounds {cs : Str} {rs : List (Char × Char)} {kw : Expr} (hk : BoundsOK kw) : RulesBoundsOK (wordRules cs rs kw) := by
  intro ne h
  simp only [wordRules, List.mem_cons, List.not_mem_nil, or_false] at h
  rcases h with rfl | rfl | rfl
  · exact hk
  · exact .rep (.simple _) (by simp)
  · refine .rep (.or ?_) (by simp)
    intro e he
    simp only [List.mem_cons, List.not_mem_nil, or_false] at he
    rcases he with rfl | rfl | rfl
    exacts [.ruleName _, .ruleName _, .simple _]

theorem guarded_bounds (cs : Str) (rs : List (Char × Char)) (ks : List Str) : BoundsOK (guardedExpr cs rs ks) := by
  refine .or ?_
  intro e he
  obtain ⟨k, _, rfl⟩ := List.mem_map.1 he
  refine .and ?_
  intro e he
  simp only [List.mem_cons, List.not_mem_nil, or_false] at he
  rcases he with rfl | rfl
  exacts [.simple _, .not (.simple _)]

theorem factored_bounds (cs : Str) (rs : List (Char × Char)) (ks : List Str) : BoundsOK (factoredExpr cs rs ks) := by
  refine .and ?_
  intro e he
  simp only [List.mem_cons, List.not_mem_nil, or_false] at he
  rcases he with rfl | rfl
  · refine .or ?_
    intro e he
    obtain ⟨k, _, rfl⟩ := List.mem_map.1 he
    exact .simple _
  · exact .not (.simple _)

section
variable {cs : Str} {rs : List (Char × Char)} {ks : List Str}

/-- **C96**: every ASCII text is accepted, and its words are told apart: those that are listed are `kw`, the others `id`. -/
theorem C96_guarded (hks : ∀ k ∈ ks, k ≠ [] ∧ ∀ c ∈ k, InClass cs rs c) {s : Str} (ha : Ascii s) {ts : List Tok}
    (h : Scanned (InClass cs rs) s ts) :
    parse s (wordRules cs rs (guardedExpr cs rs ks)) = .ok (.rule c!"main" (ts.map (tokNode (· ∈ ks)))) := by
  rw [C02_parse_ok_iff_peg _ ha (word_bounds (guarded_bounds cs rs ks))]
  exact .call_ok rfl (scan_peg rfl rfl (guarded_is hks) h)

/-- **C96**: with the guard after the choice, a word is `kw` only if no keyword listed before it begins it. -/
theorem C96_factored (hks : ∀ k ∈ ks, k ≠ [] ∧ ∀ c ∈ k, InClass cs rs c) {s : Str} (ha : Ascii s) {ts : List Tok}
    (h : Scanned (InClass cs rs) s ts) :
    parse s (wordRules cs rs (factoredExpr cs rs ks)) = .ok (.rule c!"main" (ts.map (tokNode (FirstOf ks)))) := by
  rw [C02_parse_ok_iff_peg _ ha (word_bounds (factored_bounds cs rs ks))]
  exact .call_ok rfl (scan_peg rfl rfl (factored_is hks) h)

/-- **C96**: every text can be scanned, in one way, and nothing is lost. -/
theorem C96_scanned (L : Char → Prop) (s : Str) : ∃ ts, Scanned L s ts ∧ (∀ ts', Scanned L s ts' → ts' = ts) ∧
    ts.flatMap (fun | .word w => w | .other c => [c]) = s := by
  obtain ⟨ts, h⟩ := scanned_exists L _ s (Nat.le_refl _)
  refine ⟨ts, h, fun ts' h' => ?_, scanned_text h⟩
  induction h generalizing ts' with
  | nil =>
    generalize he : ([] : Str) = s at h'
    cases h' with
    | nil => rfl
    | word hn => exact absurd (List.append_eq_nil_iff.1 he.symm).1 hn
    | other => cases he
  | @word w r ts hn hw hr _ ih =>
    generalize he : w ++ r = s at h'
    cases h' with
    | nil => exact absurd (List.append_eq_nil_iff.1 he).1 hn
    | @word w' r' ts' hn' hw' hr' h2 =>
      have h3 : w <+: w' := (prefix_word (L := L) hw hr').1 (he ▸ List.prefix_append w r)
      have h4 : w' <+: w := (prefix_word (L := L) hw' hr).1 (he ▸ List.prefix_append w' r')
      have h5 : w = w' := h3.eq_of_length_le h4.length_le
      subst h5
      rw [List.append_cancel_left_eq] at he
      subst he
      rw [ih _ h2]
    | other hc =>
      obtain ⟨c, w, rfl⟩ := List.exists_cons_of_ne_nil hn
      cases he
      exact absurd (hw _ List.mem_cons_self) hc
  | @other c r ts hc _ ih =>
    generalize he : c :: r = s at h'
    cases h' with
    | nil => cases he
    | word hn hw =>
      obtain ⟨c, w, rfl⟩ := List.exists_cons_of_ne_nil hn
      cases he
      exact absurd (hw _ List.mem_cons_self) hc
    | other hc h2 =>
      cases he
      rw [ih _ h2]

/-- **C96**: with the guard in each alternative the order of the keywords, and repeating them, does not matter. -/
theorem C96_order {ks' : List Str} (hks : ∀ k ∈ ks, k ≠ [] ∧ ∀ c ∈ k, InClass cs rs c) (h : ∀ k, k ∈ ks ↔ k ∈ ks') {s : Str} (ha : Ascii s) :
    parse s (wordRules cs rs (guardedExpr cs rs ks)) = parse s (wordRules cs rs (guardedExpr cs rs ks')) := by
  obtain ⟨ts, ht⟩ := scanned_exists (InClass cs rs) _ s (Nat.le_refl _)
  rw [C96_guarded hks ha ht, C96_guarded (fun k hk => hks k ((h k).2 hk)) ha ht]
  have : (· ∈ ks) = (· ∈ ks') := funext fun k => propext (h k)
  rw [this]

/-- **C96**: the guard can be put after the choice exactly if no keyword is listed after another one that begins it. -/
theorem C96_same_iff (hks : ∀ k ∈ ks, k ≠ [] ∧ Ascii k ∧ ∀ c ∈ k, InClass cs rs c) :
    (∀ s, Ascii s → parse s (wordRules cs rs (guardedExpr cs rs ks)) = parse s (wordRules cs rs (factoredExpr cs rs ks))) ↔
    ∀ k ∈ ks, FirstOf ks k := by
  have hks' : ∀ k ∈ ks, k ≠ [] ∧ ∀ c ∈ k, InClass cs rs c := fun k hk => ⟨(hks k hk).1, (hks k hk).2.2⟩
  constructor
  · intro h k hk
    obtain ⟨h1, h2, h3⟩ := hks k hk
    have hs : Scanned (InClass cs rs) k [.word k] := by
      have := Scanned.word (L := InClass cs rs) (r := []) h1 h3 (by simp) .nil
      rwa [List.append_nil] at this
    have := h k h2
    rw [C96_guarded hks' h2 hs, C96_factored hks' h2 hs] at this
    by_cases hF : FirstOf ks k
    · exact hF
    · simp [tokNode, hk, hF] at this
  · intro h s ha
    obtain ⟨ts, ht⟩ := scanned_exists (InClass cs rs) _ s (Nat.le_refl _)
    rw [C96_guarded hks' ha ht, C96_factored hks' ha ht]
    have : (· ∈ ks) = FirstOf ks := funext fun k => propext ⟨h k, fun ⟨b, a, h, _⟩ => by rw [h]; simp⟩
    rw [this]

end

/-- the keywords `in` and `int`, in this order, as a PEG text -/
theorem guarded_text : rulesFromPeg c!"main = (kw / id / .)*\nid = [a-z]+\nkw = 'in' ![a-z] / 'int' ![a-z]\n" =
    .ok (wordRules [] [('a', 'z')] (guardedExpr [] [('a', 'z')] [c!"in", c!"int"])) :=
  rulesFromPeg_of 300 (by decide +kernel)

theorem factored_text : rulesFromPeg c!"main = (kw / id / .)*\nid = [a-z]+\nkw = ('in' / 'int') ![a-z]\n" =
    .ok (wordRules [] [('a', 'z')] (factoredExpr [] [('a', 'z')] [c!"in", c!"int"])) :=
  rulesFromPeg_of 300 (by decide +kernel)

/-- **C96** refuted for the guard after the choice: `int` is not seen as a keyword if `in` comes first. -/
theorem C96_int : parse c!"int in" (wordRules [] [('a', 'z')] (guardedExpr [] [('a', 'z')] [c!"in", c!"int"])) =
      .ok (.rule c!"main" [.rule c!"kw" [.val c!"int"], .val c!" ", .rule c!"kw" [.val c!"in"]]) ∧
    parse c!"int in" (wordRules [] [('a', 'z')] (factoredExpr [] [('a', 'z')] [c!"in", c!"int"])) =
      .ok (.rule c!"main" [.rule c!"id" [.val c!"i", .val c!"n", .val c!"t"], .val c!" ", .rule c!"kw" [.val c!"in"]]) :=
  ⟨parse_of_fuel (f := 60) (by decide +kernel) (by simp), parse_of_fuel (f := 60) (by decide +kernel) (by simp)⟩

end DP
