/-
Classes of the concrete syntax, and how the built-in grammar decides what comes next.
-/
import Verif.Proofs.SynLeaf

namespace DP
open Spec PegRules Spec.Syntax Peg

/-! ### Classes -/

theorem rangesStr_eq : ∀ rs, rangesStr rs = rangesText rs
  | [] => rfl
  | (a, b) :: rs => by rw [rangesStr, rangesStr_eq rs]; rfl

abbrev eMchar : Expr := .and [.not (.simple (.literal c!"]")), .not (.and [.simple .dot, .simple (.literal c!"-")]), .simple .dot]

/-- no character of `mchars` starts here -/
theorem mchar_stop {q : Str} (h : q.head? = some ']' ∨ ∃ a t, q = a :: '-' :: t) : Peg GP eMchar q .fail := by
  by_cases hb : q.head? = some ']'
  · cases q with
    | nil => simp at hb
    | cons c q => cases hb; exact .and_fail (.not_ok lit1)
  · obtain ⟨a, t, rfl⟩ := h.resolve_left hb
    exact .and_tail_fail (.not_fail (litF hb)) (.and_fail (.not_ok (andC (.dot_ok a _) (and1 lit1))))

theorem mchar_ok {c : Char} {q : Str} (h1 : c ≠ ']') (h2 : q.head? ≠ some '-') : Peg GP eMchar (c :: q) (.ok q [.val [c]]) := by
  have := andC (G := GP) (s := c :: q) (e := .not (.simple (.literal c!"]"))) (.not_fail (litF (by simpa using h1)))
    (andC (e := .not (.and [.simple .dot, .simple (.literal c!"-")])) (.not_fail (.and_tail_fail (.dot_ok c q) (.and_fail (litF h2)))) (and1 (.dot_ok c q)))
  simpa using this

theorem mchars_rep {q : Str} (hq : q.head? = some ']' ∨ ∃ a t, q = a :: '-' :: t) (hd : q.head? ≠ some '-') : ∀ (l : Str) (mn : Nat), mn ≤ l.length →
    ']' ∉ l → '-' ∉ l.tail → Peg GP (.rep eMchar mn none) (l ++ q) (.ok q (l.map fun c => .val [c]))
  | [], mn, hm, _, _ => by
    cases Nat.le_zero.mp hm
    exact .rep_stop (by simp) (mchar_stop hq)
  | c :: l, mn, hm, h1, h2 => by
    simp only [List.mem_cons, not_or] at h1
    rw [List.tail_cons] at h2
    have h3 : (l ++ q).head? ≠ some '-' := by
      cases l with
      | nil => exact hd
      | cons d l =>
        simp only [List.mem_cons, not_or] at h2
        simpa using Ne.symm h2.1
    refine .rep_more (by simp) (mchar_ok (Ne.symm h1.1) h3) (mchars_rep hq hd l _ (by simp at hm; omega) h1.2 ?_)
    intro h
    exact h2 (List.mem_of_mem_tail h)

theorem mbetween_ok (a b : Char) (q : Str) :
    Peg GP (.ruleName c!"mbetween") (a :: '-' :: b :: q) (.ok q [.rule c!"mbetween" [.val [a], .val c!"-", .val [b]]]) :=
  .call_ok gp_mbetween (andC (.dot_ok a _) (andC lit1 (and1 (.dot_ok b q))))

theorem mbetween_stop {r : Str} (h : r.head? ≠ some '-') : Peg GP (.ruleName c!"mbetween") (']' :: r) .fail :=
  .call_fail gp_mbetween (.and_tail_fail (.dot_ok _ _) (.and_fail (litF h)))

theorem mbetween_rep {r : Str} (h : r.head? ≠ some '-') : ∀ (rs : List (Char × Char)) (mn : Nat), mn ≤ rs.length →
    Peg GP (.rep (.ruleName c!"mbetween") mn none) (rangesStr rs ++ ']' :: r)
      (.ok (']' :: r) (rs.map fun p => .rule c!"mbetween" [.val [p.1], .val c!"-", .val [p.2]]))
  | [], mn, hm => by
    cases Nat.le_zero.mp hm
    exact .rep_stop (by simp) (mbetween_stop h)
  | (a, b) :: rs, mn, hm => .rep_more (by simp) (mbetween_ok a b _) (mbetween_rep h rs _ (by simp at hm; omega))

theorem ranges_flat : ∀ (rs : List (Char × Char)) (rest : List Node),
    flatList ((rs.map fun p => .rule c!"mbetween" [.val [p.1], .val c!"-", .val [p.2]]) ++ rest) = rangesFlat rs ++ flatList rest
  | [], _ => rfl
  | (a, b) :: rs, rest => by
    have e : flatRule c!"mbetween" [.val [a], .val c!"-", .val [b]] = rangeFlat (a, b) :=
      flatRule_mbetween (flatList_allvals (vs := [[a], c!"-", [b]]) (by simp))
    rw [List.map_cons, List.cons_append, flatList_rule, ranges_flat rs rest, e]
    simp [rangesFlat]

/-- classes -/
theorem class_reads {cs rs} {r : Str} (h : ClassOK cs rs) (hr : r.head? ≠ some '-') : ∃ ns,
    Peg GP (.ruleName c!"match") ('[' :: cs ++ rangesStr rs ++ [']'] ++ r) (.ok r [.rule c!"match" ns]) ∧
    Runs consumeMatch (flatRule c!"match" ns) (some (.simple (.mtch cs rs))) none := by
  have e : '[' :: cs ++ rangesStr rs ++ [']'] ++ r = '[' :: (cs ++ (rangesStr rs ++ ']' :: r)) := by simp
  have key : ∀ ns, flatList ns = .val c!"[" :: (classFlat cs rs ++ [.val c!"]"]) →
      Runs consumeMatch (flatRule c!"match" ns) (some (.simple (.mtch cs rs))) none := by
    intro ns hns
    refine ⟨rs.length + 1, ?_⟩
    intro f hf tail ctx
    unfold flatRule
    rw [if_neg (by decide), hns]
    have := match_run (cs := cs) (rs := rs) (f := f) (q := tail) (ctx := ctx) h.nonempty (by omega)
    show _ = _
    rw [← this]
    simp
  have h1 := mbetween_rep hr rs 0 (by simp)
  by_cases hc : cs = []
  · subst hc
    have hrs : rs ≠ [] := h.nonempty.resolve_left (by simp)
    have h2 := mbetween_rep hr rs 1 (by cases rs with | nil => exact absurd rfl hrs | cons _ _ => simp)
    rw [e]
    refine ⟨_, .call_ok gp_match (andC lit1 (andC (.or_next (.and_fail (.call_fail gp_mchars (.rep_few (by simp) (by simp) (mchar_stop ?_))))
      (.or_ok h2)) (and1 lit1))), key _ ?_⟩
    · cases rs with
      | nil => exact absurd rfl hrs
      | cons p rs => exact Or.inr ⟨p.1, _, rfl⟩
    · rw [List.singleton_append]
      have h3 := ranges_flat rs [.val c!"]"]
      rw [flatList_val, h3, flatList_val (by simp), flatList_nil]
      · simp [classFlat]
      · cases rs with
        | nil => exact absurd rfl hrs
        | cons p rs => simp
  · have h3 := mchars_rep (q := rangesStr rs ++ ']' :: r) ?_ ?_ cs 1 (by cases cs with | nil => exact absurd rfl hc | cons _ _ => simp)
      h.no_bracket h.no_dash
    · rw [e]
      refine ⟨_, .call_ok gp_match (andC lit1 (andC (.or_ok (andC (.call_ok gp_mchars h3) (and1 h1))) (and1 lit1))), key _ ?_⟩
      have h4 := ranges_flat rs [.val c!"]"]
      rw [List.singleton_append, List.singleton_append, List.cons_append, flatList_val_rule, h4, flatList_val (by simp), flatList_nil]
      simp only [classFlat, if_neg hc, flatRule]
      rw [if_neg (by decide), flatList_chars hc]
      simp
    · cases rs with
      | nil => exact Or.inl rfl
      | cons p rs => exact Or.inr ⟨p.1, _, rfl⟩
    · cases rs with
      | nil => simp [rangesStr]
      | cons p rs =>
        have := h.no_dash_range hc p (by simp)
        simpa [rangesStr] using this

theorem match_fail' {r : Str} (h : r.head? ≠ some '[') : Peg GP (.ruleName c!"match") r .fail :=
  .call_fail gp_match (.and_fail (litF h))

/-! ### First characters -/

/-- characters that start an element of a sequence -/
def Start (c : Char) : Prop := WordChar c ∨ c = '.' ∨ c = '\'' ∨ c = '"' ∨ c = '[' ∨ c = '(' ∨ c = '!'

instance (c : Char) : Decidable (Start c) := by unfold Start; infer_instance

theorem Start.noGap {c : Char} {t : Str} (h : Start c) : NoGap (c :: t) := by
  refine NoGap.of ⟨?_, ?_, ?_, ?_⟩ <;> (rintro rfl; exact absurd h (by decide))

theorem name_start {n} (h : ValidName n) : ∃ c t, n = c :: t ∧ (WordChar c ∨ c = '.') := by
  obtain ⟨d, y, t, hd, ⟨c, cs, rfl, hc, _⟩, _, rfl⟩ := h
  rcases hd with rfl | rfl
  · exact ⟨c, _, rfl, Or.inl hc⟩
  · exact ⟨'.', _, rfl, Or.inr rfl⟩

theorem symbol_start {n} (h : ValidSymbol n) : ∃ c t, n = c :: t ∧ WordChar c := by
  obtain ⟨c, cs, rfl, hc, _⟩ := h
  exact ⟨c, _, rfl, hc⟩

theorem atom_start {a : Syntax.Atom} (h : a.OK) : ∃ c t, a.str = c :: t ∧ Start c ∧ c ≠ '!' := by
  cases a with
  | lit l =>
    cases l with
    | single b => exact ⟨'\'', _, rfl, by decide, by decide⟩
    | double ps => exact ⟨'"', _, rfl, by decide, by decide⟩
  | cls cs rs => exact ⟨'[', _, rfl, by decide, by decide⟩
  | ref n =>
    obtain ⟨c, t, rfl, hc⟩ := name_start h
    refine ⟨c, t, rfl, hc.imp id Or.inl, ?_⟩
    rintro rfl
    rcases hc with hc | hc
    · exact absurd hc (by decide)
    · exact absurd hc (by decide)
  | dot => exact ⟨'.', _, rfl, by decide, by decide⟩
  | par g1 e g2 => exact ⟨'(', _, rfl, by decide, by decide⟩

theorem item_start {i : Syntax.Item} (h : i.OK) : ∃ c t, i.str = c :: t ∧ Start c := by
  have key : ∀ {a : Syntax.Atom}, a.OK → ∀ u, ∃ c t, a.str ++ u = c :: t ∧ Start c := by
    intro a ha u
    obtain ⟨c, t, e, hc, _⟩ := atom_start ha
    exact ⟨c, t ++ u, by rw [e]; rfl, hc⟩
  cases i with
  | plain a => obtain ⟨c, t, e, hc, _⟩ := atom_start (a := a) h; exact ⟨c, t, e, hc⟩
  | star a => exact key (a := a) h _
  | plus a => exact key (a := a) h _
  | opt a => exact key (a := a) h _
  | not a => exact ⟨'!', _, rfl, by decide⟩

theorem err_start (g1 g2 l g3) : ∃ t, errStr g1 g2 l g3 = 'e' :: t := ⟨_, rfl⟩

theorem seq_start {s : Syntax.Seq} (h : s.OK) : ∃ c t, s.str = c :: t ∧ Start c := by
  cases s with
  | err g1 g2 l g3 => exact ⟨'e', _, rfl, by decide⟩
  | item i t =>
    obtain ⟨c, u, e, hc⟩ := item_start h.1
    exact ⟨c, u ++ t.str, by rw [Seq.str, e]; rfl, hc⟩

theorem alt_start {a : Alt} (h : a.OK) : ∃ c t, a.str = c :: t ∧ Start c := by
  cases a with
  | one s => exact seq_start h
  | cons s g1 g2 a =>
    obtain ⟨c, u, e, hc⟩ := seq_start (s := s) h.1
    exact ⟨c, _, by rw [Alt.str, e]; rfl, hc⟩

/-! ### What the grammar does not read -/

theorem head_of {P : Char → Prop} {r : Str} (h : ∀ c, r.head? = some c → P c) {c : Char} (hc : ¬ P c) : r.head? ≠ some c :=
  fun e => hc (h c e)

theorem atomOrPar_fail {r : Str} (h : ∀ c, r.head? = some c → ¬ Start c ∨ c = '!') : Peg GP (.ruleName c!"atom_or_par") r .fail := by
  have hh : ∀ c, Start c → c ≠ '!' → r.head? ≠ some c := by
    intro c hc hn e
    rcases h c e with h | h
    · exact h hc
    · exact hn h
  refine .call_fail gp_atom_or_par (.or_next (.call_fail gp_atom (.or_next (lit_fail' (hh _ (by decide) (by decide)) (hh _ (by decide) (by decide)))
    (.or_next (match_fail' (hh _ (by decide) (by decide))) (.or_next (name_fail ?_ ?_) (.or_next (.call_fail gp_dot (litF (hh _ (by decide) (by decide))))
      (.or_nil _)))))) (.or_next (.call_fail gp_parenth (.and_fail (litF (hh _ (by decide) (by decide))))) (.or_nil _)))
  · intro c hc hw
    exact hh c (Or.inl hw) (by rintro rfl; exact absurd hw (by decide)) hc
  · rintro t rfl
    exact absurd rfl (hh '.' (by decide) (by decide))

theorem and_fail' {r : Str} (h : ∀ c, r.head? = some c → ¬ Start c) : Peg GP (.ruleName c!"and") r .fail := by
  refine .call_fail gp_and (.or_next (.call_fail gp_error (.and_fail (litF (head_of h (by decide)))))
    (.or_next (.and_fail (.call_fail gp_rep_or_neg (.or_next (.and_fail (atomOrPar_fail fun c hc => Or.inl (h c hc)))
      (.or_next (.and_fail (litF (head_of h (by decide)))) (.or_nil _))))) (.or_nil _)))

/-- start of a definition -/
abbrev eHead : Expr := .and [.ruleName c!"rule_name", .ruleName c!"_", .or [.simple (.literal c!"="), .simple (.literal c!"{")]]

/-- a further element of a sequence -/
abbrev eTail : Expr := .and [.ruleName c!"_1", .ruleName c!"_", .not eHead, .ruleName c!"and"]

/-- a further alternative -/
abbrev eSlash : Expr := .and [.ruleName c!"_", .simple (.literal c!"/"), .ruleName c!"_", .ruleName c!"or"]

/-- what may follow an atom -/
def AtomFollow (r : Str) : Prop := ∀ c, r.head? = some c →
  c = ' ' ∨ c = '\n' ∨ c = '\r' ∨ c = '/' ∨ c = ')' ∨ c = '}' ∨ c = '*' ∨ c = '+' ∨ c = '?'

/-- what may follow an item -/
def ItemFollow (r : Str) : Prop := ∀ c, r.head? = some c →
  c = ' ' ∨ c = '\n' ∨ c = '\r' ∨ c = '/' ∨ c = ')' ∨ c = '}'

theorem ItemFollow.atom {r} (h : ItemFollow r) : AtomFollow r := by
  intro c hc
  rcases h c hc with h | h | h | h | h | h <;> simp [h]

theorem AtomFollow.nameEnd {r} (h : AtomFollow r) : NameEnd r := by
  constructor
  · intro c hc
    rcases h c hc with rfl | rfl | rfl | rfl | rfl | rfl | rfl | rfl | rfl <;> decide
  · rintro t rfl
    have := h '.' rfl
    exact absurd this (by decide)

theorem gap_start (g : Gap) : ∃ c t, g.str = c :: t ∧ (c = ' ' ∨ c = '\n' ∨ c = '\r' ∨ c = '/') := by
  cases g with
  | eol e => cases e <;> exact ⟨_, _, rfl, by simp⟩
  | _ => exact ⟨_, _, rfl, by simp⟩

theorem itemFollow_gaps (gs : Gaps) (r : Str) (h : gs = [] → ItemFollow r) : ItemFollow (gapsStr gs ++ r) := by
  cases gs with
  | nil => exact h rfl
  | cons g gs =>
    obtain ⟨c, t, e, hc⟩ := gap_start g
    intro d hd
    rw [gapsStr, e] at hd
    cases hd
    rcases hc with h | h | h | h <;> simp [h]

/-- the end of a sequence -/
structure SeqEnd (r : Str) : Prop where
  follow : ItemFollow r
  stop : ∃ gs r', r = gapsStr gs ++ r' ∧ GapsOK gs ∧ NoGap r' ∧ (∀ c, r'.head? = some c → c ≠ '=' ∧ c ≠ '{' ∧ c ≠ '(') ∧
    ((∀ c, r'.head? = some c → ¬ Start c) ∨ ∃ q ns, Peg GP eHead r' (.ok q ns))

/-- the end of an expression -/
structure AltEnd (r : Str) : Prop extends SeqEnd r where
  slash : ∃ gs r', r = gapsStr gs ++ r' ∧ GapsOK gs ∧ NoGap r' ∧ r'.head? ≠ some '/'

theorem tail_stop {r} (h : SeqEnd r) : Peg GP eTail r .fail := by
  obtain ⟨gs, r', rfl, h1, h2, h3, h4⟩ := h.stop
  have key : ∀ gs, GapsOK gs → Peg GP (.and [.ruleName c!"_", .not eHead, .ruleName c!"and"]) (gapsStr gs ++ r') .fail := by
    intro gs h1
    obtain ⟨ns, h5⟩ := ws_ok h1 h2
    refine .and_tail_fail h5 ?_
    rcases h4 with h4 | ⟨q, ns', h4⟩
    · refine .and_tail_fail (.not_fail (.and_fail (name_fail (fun c hc hw => h4 c hc (Or.inl hw)) ?_))) (.and_fail (and_fail' h4))
      rintro t rfl
      exact absurd (show Start '.' by decide) (h4 '.' rfl)
    · exact .and_fail (.not_ok h4)
  cases gs with
  | nil =>
    exact .and_fail (one_fail fun c t e => ⟨(h2 c t e).1, (h2 c t e).2.1, (h2 c t e).2.2.1⟩)
  | cons g gs =>
    by_cases hc : g.isComment = true
    · have hh := comment_head hc (gapsStr gs ++ r')
      rw [gapsStr, List.append_assoc]
      refine .and_fail (one_fail ?_)
      intro c t e
      rw [e] at hh
      cases hh
      decide
    · obtain ⟨n1, h5⟩ := one_ok (r := gapsStr gs ++ r') (by simpa using hc) (h1.gapEnd h2.ne_lf)
      rw [gapsStr, List.append_assoc]
      exact .and_tail_fail h5 (key gs h1.tail)

theorem slash_stop {r} (h : AltEnd r) : Peg GP eSlash r .fail := by
  obtain ⟨gs, r', rfl, h1, h2, h3⟩ := h.slash
  obtain ⟨ns, h5⟩ := ws_ok h1 h2
  exact .and_tail_fail h5 (.and_fail (litF h3))

end DP
