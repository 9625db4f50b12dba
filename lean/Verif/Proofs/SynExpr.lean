/-
Expressions of the concrete syntax are read by the built-in grammar and by the consumers as what they denote.
-/
import Verif.Proofs.SynRun

namespace DP
open Spec PegRules Spec.Syntax Peg

/-! ### Lookahead -/

/-- after the gaps comes a text for which `P` holds -/
def After (r : Str) (P : Char → Prop) : Prop :=
  ∃ gs r', r = gapsStr gs ++ r' ∧ GapsOK gs ∧ NoGap r' ∧ ∀ c, r'.head? = some c → P c

theorem After.imp {r : Str} {P Q : Char → Prop} (h : After r P) (hpq : ∀ c, P c → Q c) : After r Q := by
  obtain ⟨gs, r', h1, h2, h3, h4⟩ := h
  exact ⟨gs, r', h1, h2, h3, fun c hc => hpq c (h4 c hc)⟩

theorem After.direct {c : Char} {r : Str} {P : Char → Prop} (h : P c) (hg : NoGap (c :: r)) : After (c :: r) P :=
  ⟨[], c :: r, rfl, trivial, hg, fun d hd => by cases hd; exact h⟩

theorem After.lit {r : Str} {c : Char} {es : List Expr} (h : After r (· ≠ c)) :
    Peg GP (.and (.ruleName c!"_" :: .simple (.literal [c]) :: es)) r .fail := by
  obtain ⟨gs, r', rfl, h2, h3, h4⟩ := h
  obtain ⟨ns, h5⟩ := ws_ok h2 h3
  exact .and_tail_fail h5 (.and_fail (litF fun e => h4 _ e rfl))

abbrev eDef : Expr := .or [.simple (.literal c!"="), .simple (.literal c!"{")]

theorem After.def {r : Str} (h : After r fun c => c ≠ '=' ∧ c ≠ '{') : Peg GP (.and [.ruleName c!"_", eDef]) r .fail := by
  obtain ⟨gs, r', rfl, h2, h3, h4⟩ := h
  obtain ⟨ns, h5⟩ := ws_ok h2 h3
  exact .and_tail_fail h5 (.and_fail (.or_next (litF fun e => (h4 _ e).1 rfl) (.or_next (litF fun e => (h4 _ e).2 rfl) (.or_nil _))))

theorem SeqEnd.after {r} (h : SeqEnd r) : After r fun c => c ≠ '=' ∧ c ≠ '{' ∧ c ≠ '(' := by
  obtain ⟨gs, r', h1, h2, h3, h4, _⟩ := h.stop
  exact ⟨gs, r', h1, h2, h3, h4⟩

theorem start_def {c : Char} (h : Start c) : c ≠ '=' ∧ c ≠ '{' ∧ c ≠ '/' ∧ c ≠ ')' := by
  refine ⟨?_, ?_, ?_, ?_⟩ <;> (rintro rfl; exact absurd h (by decide))

theorem gaps_start {gs : Gaps} {c : Char} {t r : Str} {P : Char → Prop} (h : GapsOK gs) (hs : Start c) (hp : P c) (e : r = c :: t) :
    After (gapsStr gs ++ r) P :=
  ⟨gs, r, rfl, h, e ▸ hs.noGap, fun d hd => by rw [e] at hd; cases hd; exact hp⟩

theorem tail_follow {t : Syntax.Tail} {r} (h : t.OK) (hr : SeqEnd r) : ItemFollow (t.str ++ r) := by
  cases t with
  | nil => exact hr.follow
  | item g i t =>
    rw [Tail.str, List.append_assoc, List.append_assoc]
    refine itemFollow_gaps _ _ ?_
    rintro rfl
    obtain ⟨_, x, gs, e, _⟩ := h.1
    cases e
  | err g g1 g2 l g3 t =>
    rw [Tail.str, List.append_assoc, List.append_assoc]
    refine itemFollow_gaps _ _ ?_
    rintro rfl
    obtain ⟨_, x, gs, e, _⟩ := h.1
    cases e

theorem tail_after {t : Syntax.Tail} {r} (h : t.OK) (hr : SeqEnd r) : After (t.str ++ r) fun c => c ≠ '=' ∧ c ≠ '{' := by
  cases t with
  | nil => exact hr.after.imp fun c h => ⟨h.1, h.2.1⟩
  | item g i t =>
    rw [Tail.str, List.append_assoc, List.append_assoc]
    obtain ⟨c, u, e, hc⟩ := item_start h.2.1
    exact gaps_start h.1.1 hc ⟨(start_def hc).1, (start_def hc).2.1⟩ (by rw [e]; rfl)
  | err g g1 g2 l g3 t =>
    rw [Tail.str, List.append_assoc, List.append_assoc]
    exact gaps_start (c := 'e') h.1.1 (by decide) (by decide) rfl

theorem atomFollow_cons {c : Char} (h : c = '*' ∨ c = '+' ∨ c = '?') (r : Str) : AtomFollow (c :: r) := by
  intro d hd
  cases hd
  rcases h with rfl | rfl | rfl <;> simp

theorem suffix_after {c : Char} (h : c = '*' ∨ c = '+' ∨ c = '?') (r : Str) {P : Char → Prop} (hp : P c) : After (c :: r) P := by
  refine After.direct hp (NoGap.of ?_)
  rcases h with rfl | rfl | rfl <;> decide

/-- an item: an atom, maybe with a suffix, or a negation -/
theorem item_cases (i : Syntax.Item) (h : i.OK) : (∃ a : Syntax.Atom, i = .plain a ∧ a.OK) ∨ (∃ (a : Syntax.Atom) (c : Char), (c = '*' ∨ c = '+' ∨ c = '?') ∧ a.OK ∧
    i.str = a.str ++ [c] ∧ (i = .star a ∨ i = .plus a ∨ i = .opt a)) ∨ ∃ a, i = .not a ∧ a.OK := by
  cases i with
  | plain a => exact Or.inl ⟨a, rfl, h⟩
  | star a => exact Or.inr (Or.inl ⟨a, '*', by simp, h, rfl, by simp⟩)
  | plus a => exact Or.inr (Or.inl ⟨a, '+', by simp, h, rfl, by simp⟩)
  | opt a => exact Or.inr (Or.inl ⟨a, '?', by simp, h, rfl, by simp⟩)
  | not a => exact Or.inr (Or.inr ⟨a, rfl, h⟩)

/-- the slash between alternatives does not start a comment -/
theorem slash_noGap {g : Gaps} {a : Syntax.Alt} (hg : SlashOK g) (ha : a.OK) (r : Str) : NoGap ('/' :: (gapsStr g ++ (a.str ++ r))) := by
  intro c t e
  cases e
  refine ⟨by decide, by decide, by decide, fun _ => ?_⟩
  cases g with
  | nil =>
    obtain ⟨c, t, e, hc⟩ := alt_start ha
    rw [e]
    constructor
    · simp only [gapsStr, List.nil_append, List.cons_append, List.head?_cons, ne_eq, Option.some.injEq]
      rintro rfl; exact absurd hc (by decide)
    · simp only [gapsStr, List.nil_append, List.cons_append, List.head?_cons, ne_eq, Option.some.injEq]
      rintro rfl; exact absurd hc (by decide)
  | cons x g =>
    have hx : x.isComment = false := hg.2 x (by simp)
    cases x with
    | sp => simp [gapsStr, Gap.str]
    | eol e => cases e <;> simp [gapsStr, Gap.str, Eol.str]
    | line b e => cases hx
    | multi b => cases hx

/-- atoms do not start definitions -/
theorem atom_noHead {a : Syntax.Atom} {r : Str} (h : a.OK) (hf : AtomFollow r) (hd : After r fun c => c ≠ '=' ∧ c ≠ '{') :
    Peg GP eHead (a.str ++ r) .fail := by
  have key : ∀ {c : Char} {t : Str}, ¬ WordChar c → c ≠ '.' → a.str = c :: t → Peg GP eHead (a.str ++ r) .fail := by
    intro c t hw hn e
    rw [e]
    refine .and_fail (name_fail ?_ ?_)
    · intro d hd; cases hd; exact hw
    · intro u hu; cases hu; exact absurd rfl hn
  cases a with
  | lit l =>
    cases l with
    | single b => exact key (c := '\'') (by decide) (by decide) rfl
    | double ps => exact key (c := '"') (by decide) (by decide) rfl
  | cls cs rs => exact key (c := '[') (by decide) (by decide) rfl
  | par g1 e g2 => exact key (c := '(') (by decide) (by decide) rfl
  | ref n =>
    obtain ⟨ns, h1, _⟩ := name_reads h hf.nameEnd
    exact .and_tail_fail h1 hd.def
  | dot =>
    refine .and_fail (name_fail ?_ ?_)
    · intro d hd; cases hd; decide
    · intro u hu c hc
      simp only [Atom.str, List.cons_append, List.nil_append, List.cons.injEq, true_and] at hu
      subst hu
      exact fun hw => hf.nameEnd.1 c hc (Or.inl hw)

theorem item_noHead {i : Syntax.Item} {r : Str} (h : i.OK) (hf : ItemFollow r) (hd : After r fun c => c ≠ '=' ∧ c ≠ '{') :
    Peg GP eHead (i.str ++ r) .fail := by
  rcases item_cases i h with ⟨a, rfl, ha⟩ | ⟨a, c, hc, ha, e, _⟩ | ⟨a, rfl, ha⟩
  · exact atom_noHead ha hf.atom hd
  · rw [e, List.append_assoc]
    exact atom_noHead ha (atomFollow_cons hc r) (suffix_after hc r (by rcases hc with rfl | rfl | rfl <;> decide))
  · refine .and_fail (name_fail ?_ ?_)
    · intro d hd; cases hd; decide
    · intro u hu; cases hu

/-- `error(` is not the start of a definition -/
theorem err_noHead {g1 g2 : Gaps} {l : Lit} {g3 : Gaps} (h : ErrOK g1 g2 l g3) (r : Str) : Peg GP eHead (errStr g1 g2 l g3 ++ r) .fail := by
  have e : errStr g1 g2 l g3 ++ r = c!"error" ++ (gapsStr g1 ++ '(' :: (gapsStr g2 ++ (l.str ++ (gapsStr g3 ++ ')' :: r)))) := by simp [errStr]
  rw [e]
  have hv : ValidName c!"error" := ⟨[], c!"error", [], Or.inl rfl, ⟨'e', c!"rror", rfl, by decide, by decide⟩, .nil, rfl⟩
  have hne : NameEnd (gapsStr g1 ++ '(' :: (gapsStr g2 ++ (l.str ++ (gapsStr g3 ++ ')' :: r)))) := by
    cases g1 with
    | nil => exact ⟨fun c hc => by cases hc; decide, fun t ht => by cases ht⟩
    | cons g gs => exact (itemFollow_gaps (g :: gs) _ (by simp)).atom.nameEnd
  obtain ⟨ns, h1, _⟩ := name_reads hv hne
  refine .and_tail_fail h1 (After.def ?_)
  exact gaps_start h.1 (c := '(') (by decide) (by decide) rfl

/-! ### References are not errors -/

abbrev eErrTail : List Expr := [.ruleName c!"_", .simple (.literal c!"("), .ruleName c!"_", .ruleName c!"literal", .ruleName c!"_", .simple (.literal c!")")]

theorem symbol_chars {y} (h : ValidSymbol y) : ∀ c ∈ y, SymChar c ∨ c = '.' := by
  obtain ⟨c, cs, rfl, hc, hcs⟩ := h
  intro d hd
  rcases List.mem_cons.mp hd with rfl | hd
  · exact Or.inl (Or.inl hc)
  · exact Or.inl (hcs d hd)

theorem name_chars {n} (h : ValidName n) : ∀ c ∈ n, SymChar c ∨ c = '.' := by
  obtain ⟨d, y, t, hd, hy, ht, rfl⟩ := h
  have h1 : ∀ c ∈ t, SymChar c ∨ c = '.' := by
    induction ht with
    | nil => simp
    | @cons y t hy _ ih =>
      intro c hc
      rcases List.mem_append.mp hc with hc | hc
      · rcases List.mem_cons.mp hc with rfl | hc
        · exact Or.inr rfl
        · exact symbol_chars hy c hc
      · exact ih c hc
  intro c hc
  rcases List.mem_append.mp hc with hc | hc
  · rcases List.mem_append.mp hc with hc | hc
    · rcases hd with rfl | rfl
      · cases hc
      · simp at hc; exact Or.inr hc
    · exact symbol_chars hy c hc
  · exact h1 c hc

/-- a reference is not read as `error(...)` unless what follows says so -/
theorem ref_noError {n r : Str} (h : ValidName n) (hf : AtomFollow r) (hr : n = c!"error" → Peg GP (.and eErrTail) r .fail) :
    Peg GP (.ruleName c!"error") (n ++ r) .fail := by
  refine .call_fail gp_error ?_
  by_cases hp : c!"error" <+: n ++ r
  · obtain ⟨q, hq⟩ := hp
    rcases List.append_eq_append_iff.mp hq with ⟨a', h1, h2⟩ | ⟨a', h1, h2⟩
    · rw [← hq, h2]
      cases a' with
      | nil =>
        rw [List.append_nil] at h1
        exact .and_tail_fail litOk (hr h1)
      | cons c a' =>
        have hc := name_chars h c (by rw [h1]; simp)
        have key : After (c :: a' ++ r) (· ≠ '(') := by
          refine After.direct ?_ (NoGap.of ?_)
          · rintro rfl; exact absurd hc (by decide)
          · refine ⟨?_, ?_, ?_, ?_⟩ <;> (rintro rfl; exact absurd hc (by decide))
        exact .and_tail_fail litOk key.lit
    · cases a' with
      | nil =>
        rw [List.append_nil] at h1
        rw [← hq]
        rw [List.nil_append] at h2
        exact .and_tail_fail litOk (h2 ▸ hr h1.symm)
      | cons c a' =>
        have hc : c ∈ c!"error" := by rw [h1]; simp
        have := hf c (by rw [h2]; rfl)
        exfalso
        simp only [List.mem_cons, List.not_mem_nil, or_false] at hc
        rcases hc with rfl | rfl | rfl | rfl | rfl <;> exact absurd this (by decide)
  · exact .and_fail (.lit_fail _ _ hp)

/-- a sequence that is not just a literal -/
theorem par_noLit {e : Syntax.Alt} {g2 : Gaps} (h : e.OK) (hn : ∀ l, e ≠ .one (.item (.plain (.lit l)) .nil)) (r : Str) :
    Peg GP (.and [.ruleName c!"literal", .ruleName c!"_", .simple (.literal c!")")]) (e.str ++ (gapsStr g2 ++ ')' :: r)) .fail := by
  -- a sequence followed by something that is not `)`
  have seqCase : ∀ (s : Syntax.Seq) (q : Str), s.OK → (After q (· ≠ ')') ∨ ∀ l, s ≠ .item (.plain (.lit l)) .nil) →
      Peg GP (.and [.ruleName c!"literal", .ruleName c!"_", .simple (.literal c!")")]) (s.str ++ q) .fail := by
    intro s q hs hq
    have noLit : ∀ {c : Char} {t : Str}, c ≠ '\'' → c ≠ '"' → s.str = c :: t →
        Peg GP (.and [.ruleName c!"literal", .ruleName c!"_", .simple (.literal c!")")]) (s.str ++ q) .fail := by
      intro c t h1 h2 e
      rw [e]
      exact .and_fail (lit_fail' (by simpa using h1) (by simpa using h2))
    cases s with
    | err g1 g2 l g3 => exact noLit (c := 'e') (by decide) (by decide) rfl
    | item i t =>
      have atomCase : ∀ (a : Syntax.Atom) (u : Str), a.OK → (∀ l, a = .lit l → After u (· ≠ ')')) →
          Peg GP (.and [.ruleName c!"literal", .ruleName c!"_", .simple (.literal c!")")]) (a.str ++ u) .fail := by
        intro a u ha hu
        have noLit : ∀ {c : Char} {t : Str}, c ≠ '\'' → c ≠ '"' → a.str = c :: t →
            Peg GP (.and [.ruleName c!"literal", .ruleName c!"_", .simple (.literal c!")")]) (a.str ++ u) .fail := by
          intro c t h1 h2 e
          rw [e]
          exact .and_fail (lit_fail' (by simpa using h1) (by simpa using h2))
        cases a with
        | lit l =>
          obtain ⟨ns, h1, _⟩ := lit_reads (l := l) ha u
          exact .and_tail_fail h1 (hu l rfl).lit
        | cls cs rs => exact noLit (c := '[') (by decide) (by decide) rfl
        | par g1 e g2 => exact noLit (c := '(') (by decide) (by decide) rfl
        | dot => exact noLit (c := '.') (by decide) (by decide) rfl
        | ref n =>
          obtain ⟨c, t, rfl, hc⟩ := name_start ha
          refine noLit (c := c) ?_ ?_ rfl <;> (rintro rfl; exact absurd hc (by decide))
      rcases item_cases i hs.1 with ⟨a, rfl, ha⟩ | ⟨a, c, hc, ha, e, _⟩ | ⟨a, rfl, ha⟩
      · rw [Seq.str, Item.str, List.append_assoc]
        refine atomCase a _ ha ?_
        rintro l rfl
        cases t with
        | nil =>
          rcases hq with hq | hq
          · exact hq
          · exact absurd rfl (hq l)
        | item g i t =>
          rw [Tail.str, List.append_assoc, List.append_assoc]
          obtain ⟨c, u, e, hc⟩ := item_start hs.2.1.2.1
          exact gaps_start hs.2.1.1.1 hc (start_def hc).2.2.2 (by rw [e]; rfl)
        | err g g1 g2 l g3 t =>
          rw [Tail.str, List.append_assoc, List.append_assoc]
          exact gaps_start (c := 'e') hs.2.1.1.1 (by decide) (by decide) rfl
      · rw [Seq.str, e, List.append_assoc, List.append_assoc]
        exact atomCase a _ ha fun l _ => suffix_after hc _ (by rcases hc with rfl | rfl | rfl <;> decide)
      · exact noLit (c := '!') (by decide) (by decide) rfl
  cases e with
  | one s =>
    refine seqCase s _ h (Or.inr ?_)
    rintro l rfl
    exact hn l rfl
  | cons s g1 g2' a =>
    have e : (Alt.cons s g1 g2' a).str ++ (gapsStr g2 ++ ')' :: r) =
        s.str ++ (gapsStr g1 ++ '/' :: (gapsStr g2' ++ (a.str ++ (gapsStr g2 ++ ')' :: r)))) := by simp [Alt.str]
    rw [e]
    refine seqCase s _ h.1 (Or.inl ⟨g1, _, rfl, h.2.1, slash_noGap h.2.2.1 h.2.2.2 _, fun c hc => by cases hc; decide⟩)

/-- the items with a parenthesis first, and the rest of the text -/
theorem item_par {i : Syntax.Item} (h : i.OK) : (∃ c t, i.str = c :: t ∧ c ≠ '(' ∧ Start c) ∨
    ∃ g1 e g2, (i = .plain (.par g1 e g2) ∨ i = .star (.par g1 e g2) ∨ i = .plus (.par g1 e g2) ∨ i = .opt (.par g1 e g2)) ∧
      GapsOK g1 ∧ e.OK ∧ GapsOK g2 ∧ ∀ r, ∃ q, i.str ++ r = '(' :: (gapsStr g1 ++ (e.str ++ (gapsStr g2 ++ ')' :: q))) := by
  have atomCase : ∀ a : Syntax.Atom, a.OK → (∃ c t, a.str = c :: t ∧ c ≠ '(' ∧ Start c) ∨ ∃ g1 e g2, a = .par g1 e g2 := by
    intro a ha
    obtain ⟨c, t, e, hc, _⟩ := atom_start ha
    by_cases hp : c = '('
    · subst hp
      cases a with
      | par g1 e0 g2 => exact Or.inr ⟨g1, e0, g2, rfl⟩
      | lit l => cases l <;> cases e
      | cls cs rs => cases e
      | dot => cases e
      | ref n =>
        obtain ⟨d, u, e', hd⟩ := name_start ha
        have : n = '(' :: t := e
        rw [this] at e'
        cases e'
        exact absurd hd (by decide)
    · exact Or.inl ⟨c, t, e, hp, hc⟩
  rcases item_cases i h with ⟨a, rfl, ha⟩ | ⟨a, c, hc, ha, e, hi⟩ | ⟨a, rfl, ha⟩
  · rcases atomCase a ha with h1 | ⟨g1, e, g2, rfl⟩
    · exact Or.inl h1
    · exact Or.inr ⟨g1, e, g2, Or.inl rfl, ha.1, ha.2.1, ha.2.2, fun r => ⟨r, by simp [Item.str, Atom.str]⟩⟩
  · rcases atomCase a ha with ⟨d, t, e', hd⟩ | ⟨g1, e', g2, rfl⟩
    · exact Or.inl ⟨d, t ++ [c], by rw [e, e']; rfl, hd⟩
    · refine Or.inr ⟨g1, e', g2, ?_, ha.1, ha.2.1, ha.2.2, fun r => ⟨c :: r, by rw [e]; simp [Atom.str]⟩⟩
      rcases hi with rfl | rfl | rfl <;> simp
  · exact Or.inl ⟨'!', _, rfl, by decide, by decide⟩

/-- an item is not read as `error(...)` -/
theorem item_noError {i : Syntax.Item} {t : Syntax.Tail} {r : Str} (hi : i.OK) (ht : t.OK) (hn : ¬ LooksLikeError i t) (hr : SeqEnd r) :
    Peg GP (.ruleName c!"error") (i.str ++ (t.str ++ r)) .fail := by
  have noE : ∀ {c : Char} {u : Str}, c ≠ 'e' → i.str = c :: u → Peg GP (.ruleName c!"error") (i.str ++ (t.str ++ r)) .fail := by
    intro c u hc e
    rw [e]
    exact .call_fail gp_error (.and_fail (litF (by simpa using hc)))
  have atomCase : ∀ (a : Syntax.Atom) (u : Str), a.OK → AtomFollow u → (∀ n, a = .ref n → n = c!"error" → Peg GP (.and eErrTail) u .fail) →
      Peg GP (.ruleName c!"error") (a.str ++ u) .fail := by
    intro a u ha hu hh
    have noE : ∀ {c : Char} {v : Str}, c ≠ 'e' → a.str = c :: v → Peg GP (.ruleName c!"error") (a.str ++ u) .fail := by
      intro c v hc e
      rw [e]
      exact .call_fail gp_error (.and_fail (litF (by simpa using hc)))
    cases a with
    | lit l =>
      cases l with
      | single b => exact noE (c := '\'') (by decide) rfl
      | double ps => exact noE (c := '"') (by decide) rfl
    | cls cs rs => exact noE (c := '[') (by decide) rfl
    | par g1 e g2 => exact noE (c := '(') (by decide) rfl
    | dot => exact noE (c := '.') (by decide) rfl
    | ref n => exact ref_noError ha hu (hh n rfl)
  rcases item_cases i hi with ⟨a, rfl, ha⟩ | ⟨a, c, hc, ha, e, hi⟩ | ⟨a, rfl, ha⟩
  · refine atomCase a _ ha (tail_follow ht hr).atom ?_
    rintro n rfl rfl
    cases t with
    | nil => exact (hr.after.imp fun c h => h.2.2).lit
    | err g g1 g2 l g3 t =>
      rw [Tail.str, List.append_assoc, List.append_assoc]
      exact After.lit (gaps_start (c := 'e') ht.1.1 (by decide) (by decide) rfl)
    | item g j t =>
      rw [Tail.str, List.append_assoc, List.append_assoc]
      rcases item_par ht.2.1 with ⟨c, u, e, hc, hs⟩ | ⟨g1, e, g2, hj, hg1, he, hg2, hq⟩
      · exact After.lit (gaps_start ht.1.1 hs hc (by rw [e]; rfl))
      · obtain ⟨q, hq⟩ := hq (t.str ++ r)
        rw [hq]
        obtain ⟨c, u, eu, hc⟩ := alt_start he
        obtain ⟨n1, h1⟩ := ws_ok (r := '(' :: (gapsStr g1 ++ (e.str ++ (gapsStr g2 ++ ')' :: q)))) ht.1.1 (Start.noGap (by decide))
        obtain ⟨n2, h2⟩ := ws_ok (r := e.str ++ (gapsStr g2 ++ ')' :: q)) hg1 (by rw [eu]; exact hc.noGap)
        refine .and_tail_fail h1 (.and_tail_fail lit1 (.and_tail_fail h2 (par_noLit he ?_ q)))
        rintro l rfl
        apply hn
        rcases hj with rfl | rfl | rfl | rfl <;> exact ⟨rfl, trivial⟩
  · rw [e, List.append_assoc]
    refine atomCase a _ ha (atomFollow_cons hc _) ?_
    intro n _ _
    exact After.lit (suffix_after hc _ (by rcases hc with rfl | rfl | rfl <;> decide))
  · exact noE (c := '!') (by decide) rfl

/-! ### Reading -/

def AtomReads (a : Syntax.Atom) : Prop := ∀ r, AtomFollow r → ∃ ns,
  Peg GP (.ruleName c!"atom_or_par") (a.str ++ r) (.ok r [.rule c!"atom_or_par" ns]) ∧
  Runs consumeAtomOrPar (flatRule c!"atom_or_par" ns) a.denote a.fault

def ItemReads (i : Syntax.Item) : Prop := ∀ r, ItemFollow r → ∃ ns,
  Peg GP (.ruleName c!"rep_or_neg") (i.str ++ r) (.ok r [.rule c!"rep_or_neg" ns]) ∧
  Runs consumeRepOrNeg (flatRule c!"rep_or_neg" ns) i.denote i.fault

def SeqReads (s : Syntax.Seq) : Prop := ∀ r, SeqEnd r → ∃ ns,
  Peg GP (.ruleName c!"and") (s.str ++ r) (.ok r [.rule c!"and" ns]) ∧
  Collects recConsumeAnd (flatRule c!"and" ns) s.denote s.fault

def TailReads (t : Syntax.Tail) : Prop := ∀ r, SeqEnd r → ∃ ns,
  Peg GP (.rep eTail 0 none) (t.str ++ r) (.ok r ns) ∧ RestRuns (flatList ns) t.denote t.fault ∧
  (t = .nil → flatList ns = []) ∧ (t ≠ .nil → ∃ na more, flatList ns = flatRule c!"and" na ++ more)

def AltReads (a : Syntax.Alt) : Prop := ∀ r, AltEnd r → ∃ ns,
  Peg GP (.ruleName c!"or") (a.str ++ r) (.ok r [.rule c!"or" ns]) ∧
  Collects recConsumeOr (flatRule c!"or" ns) a.denote a.fault

theorem seq_denote_ne (s : Syntax.Seq) : s.denote ≠ some [] := by
  cases s with
  | err g1 g2 l g3 => rw [Seq.denote]; cases l.val <;> simp
  | item i t => rw [Seq.denote]; cases i.denote <;> cases t.denote <;> simp

theorem alt_denote_ne (a : Syntax.Alt) : a.denote ≠ some [] := by
  cases a with
  | one s => rw [Alt.denote]; cases s.denote <;> simp
  | cons s g1 g2 a => rw [Alt.denote]; cases s.denote <;> cases a.denote <;> simp

/-- expressions, as in rules and between parentheses -/
theorem expr_reads {a : Syntax.Alt} (h : AltReads a) {r} (hr : AltEnd r) : ∃ ns,
    Peg GP (.ruleName c!"expr") (a.str ++ r) (.ok r [.rule c!"expr" ns]) ∧
    Runs consumePegExpr (flatRule c!"expr" ns) (a.denote.map altOf) (within [c!"consuming expr", c!"or:"] a.fault) := by
  obtain ⟨ns, h1, h2⟩ := h r hr
  exact ⟨_, .call_ok gp_expr h1, (run_expr h2 (alt_denote_ne a)).as (by rw [within_within]; rfl)⟩

theorem paren_end {g : Gaps} (h : GapsOK g) (r : Str) : AltEnd (gapsStr g ++ ')' :: r) := by
  have hn : NoGap (')' :: r) := NoGap.of (by decide)
  refine ⟨⟨itemFollow_gaps _ _ fun _ c hc => by cases hc; simp, g, _, rfl, h, hn, fun c hc => by cases hc; decide,
    Or.inl fun c hc => by cases hc; decide⟩, g, _, rfl, h, hn, by simp⟩

theorem slash_end {g1 g2 : Gaps} {a : Syntax.Alt} (h : GapsOK g1) (h2 : SlashOK g2) (ha : a.OK) (r : Str) :
    SeqEnd (gapsStr g1 ++ '/' :: (gapsStr g2 ++ (a.str ++ r))) := by
  refine ⟨itemFollow_gaps _ _ fun _ c hc => by cases hc; simp, g1, _, rfl, h, slash_noGap h2 ha r, fun c hc => by cases hc; decide,
    Or.inl fun c hc => by cases hc; decide⟩

theorem lit_start (l : Lit) : ∃ c t, l.str = c :: t ∧ Start c := by
  cases l with
  | single b => exact ⟨'\'', _, rfl, by decide⟩
  | double ps => exact ⟨'"', _, rfl, by decide⟩

/-- `error(...)` -/
theorem err_reads {g1 g2 : Gaps} {l : Lit} {g3 : Gaps} (h : ErrOK g1 g2 l g3) (r : Str) : ∃ ns,
    Peg GP (.ruleName c!"error") (errStr g1 g2 l g3 ++ r) (.ok r [.rule c!"error" ns]) ∧
    Runs consumeError (flatRule c!"error" ns) (l.val.map fun v => .simple (.error v)) (within [c!"consuming error"] l.fault) := by
  have e : errStr g1 g2 l g3 ++ r = c!"error" ++ (gapsStr g1 ++ '(' :: (gapsStr g2 ++ (l.str ++ (gapsStr g3 ++ ')' :: r)))) := by simp [errStr]
  rw [e]
  obtain ⟨c, t, el, hc⟩ := lit_start l
  obtain ⟨n1, h1⟩ := ws_ok (r := '(' :: (gapsStr g2 ++ (l.str ++ (gapsStr g3 ++ ')' :: r)))) h.1 (Start.noGap (by decide))
  obtain ⟨n2, h2⟩ := ws_ok (r := l.str ++ (gapsStr g3 ++ ')' :: r)) h.2.1 (by rw [el]; exact hc.noGap)
  obtain ⟨nl, h3, h4⟩ := lit_reads h.2.2.1 (gapsStr g3 ++ ')' :: r)
  obtain ⟨n3, h5⟩ := ws_ok (r := ')' :: r) h.2.2.2 (NoGap.of (by decide))
  exact ⟨_, .call_ok gp_error (andC litOk (andC h1 (andC lit1 (andC h2 (andC h3 (andC h5 (and1 lit1))))))), run_error h4 n1 n2 n3⟩

theorem errSeq_reads {g1 g2 : Gaps} {l : Lit} {g3 : Gaps} (h : ErrOK g1 g2 l g3) (r : Str) : ∃ ns,
    Peg GP (.ruleName c!"and") (errStr g1 g2 l g3 ++ r) (.ok r [.rule c!"and" ns]) ∧
    Collects recConsumeAnd (flatRule c!"and" ns) (l.val.map fun v => [.simple (.error v)])
      (within [c!"consuming and", c!"consuming error"] l.fault) := by
  obtain ⟨ns, h1, h2⟩ := err_reads h r
  have h3 := run_andError h2
  rw [Option.map_map, within_within] at h3
  exact ⟨_, .call_ok gp_and (.or_ok h1), h3⟩

/-- an item and what follows it -/
theorem itemSeq_reads {i : Syntax.Item} {t : Syntax.Tail} (hi : i.OK) (ht : t.OK) (hn : ¬ LooksLikeError i t)
    (h1 : ItemReads i) (h2 : TailReads t) {r} (hr : SeqEnd r) : ∃ ns,
    Peg GP (.ruleName c!"and") (i.str ++ (t.str ++ r)) (.ok r [.rule c!"and" ns]) ∧
    Collects recConsumeAnd (flatRule c!"and" ns) (i.denote.bind fun e => t.denote.map (e :: ·))
      (within [c!"consuming and"] (first i.fault t.fault)) := by
  obtain ⟨n1, p1, q1⟩ := h1 (t.str ++ r) (tail_follow ht hr)
  obtain ⟨n2, p2, q2, _⟩ := h2 r hr
  exact ⟨_, .call_ok gp_and (.or_next (item_noError hi ht hn hr) (.or_ok (andC p1 (and1 p2)))), run_and q1 q2⟩

theorem suffix_ok {c : Char} (h : c = '*' ∨ c = '+' ∨ c = '?') (r : Str) :
    Peg GP (.or [.simple (.literal c!"*"), .simple (.literal c!"+"), .simple (.literal c!"?")]) (c :: r) (.ok r [.val [c]]) := by
  rcases h with rfl | rfl | rfl
  · exact .or_ok lit1
  · exact .or_next (litF (by simp)) (.or_ok lit1)
  · exact .or_next (litF (by simp)) (.or_next (litF (by simp)) (.or_ok lit1))

theorem suffix_none {r : Str} (h : ItemFollow r) :
    Peg GP (.or [.simple (.literal c!"*"), .simple (.literal c!"+"), .simple (.literal c!"?")]) r .fail := by
  refine .or_next (litF ?_) (.or_next (litF ?_) (.or_next (litF ?_) (.or_nil _))) <;>
  · intro e
    exact absurd (h _ e) (by decide)

theorem suffixItem_reads {a : Syntax.Atom} {i : Syntax.Item} {c : Char} {g : Expr → Expr} (hc : c = '*' ∨ c = '+' ∨ c = '?') (ha : AtomReads a)
    (hs : i.str = a.str ++ [c]) (hd : i.denote = a.denote.map g)
    (hfl : i.fault = within [c!"consuming rep_or_neg"] a.fault) (hx : ∀ e, processRepetitionIndicator e [c] = .ok (g e)) : ItemReads i := by
  intro r _
  obtain ⟨ns, h1, h2⟩ := ha (c :: r) (atomFollow_cons hc r)
  rw [hs, hd, hfl, List.append_assoc]
  exact ⟨_, .call_ok gp_rep_or_neg (.or_ok (andC h1 (and1 (opt_some (suffix_ok hc r))))), run_suffix hx h2⟩

theorem atom_of_literal {l : Lit} (h : l.OK) : AtomReads (.lit l) := by
  intro r _
  obtain ⟨ns, h1, h2⟩ := lit_reads h r
  exact ⟨_, .call_ok gp_atom_or_par (.or_ok (.call_ok gp_atom (.or_ok h1))), (run_atom (run_literal h2)).as (by rw [within_within, within_within, within_within]; rfl)⟩

theorem atom_of_class {cs rs} (h : ClassOK cs rs) : AtomReads (.cls cs rs) := by
  intro r hr
  obtain ⟨ns, h1, h2⟩ := class_reads (r := r) h (fun e => absurd (hr _ e) (by decide))
  have hf : Peg GP (.ruleName c!"literal") ((Atom.cls cs rs).str ++ r) .fail := lit_fail' (by simp [Atom.str]) (by simp [Atom.str])
  exact ⟨_, .call_ok gp_atom_or_par (.or_ok (.call_ok gp_atom (.or_next hf (.or_ok h1)))), run_atom (run_match h2)⟩

theorem atom_of_ref {n} (h : ValidName n) : AtomReads (.ref n) := by
  intro r hr
  obtain ⟨ns, h1, h2⟩ := name_reads h hr.nameEnd
  obtain ⟨c, t, e, hc⟩ := name_start h
  have hh : ∀ d, (WordChar d ∨ d = '.' → False) → (n ++ r).head? ≠ some d := by
    intro d hd e'
    rw [e] at e'
    cases e'
    exact hd hc
  have hf : Peg GP (.ruleName c!"literal") (n ++ r) .fail := lit_fail' (hh _ (by decide)) (hh _ (by decide))
  exact ⟨_, .call_ok gp_atom_or_par (.or_ok (.call_ok gp_atom (.or_next hf (.or_next (match_fail' (hh _ (by decide))) (.or_ok h1))))),
    run_atom (run_ref h2)⟩

theorem atom_of_dot : AtomReads .dot := by
  intro r hr
  have hf : Peg GP (.ruleName c!"literal") ((Syntax.Atom.dot).str ++ r) .fail := lit_fail' (by simp [Atom.str]) (by simp [Atom.str])
  have hn : Peg GP (.ruleName c!"rule_name") ((Syntax.Atom.dot).str ++ r) .fail := by
    refine name_fail ?_ ?_
    · intro d hd; cases hd; decide
    · intro u hu c hc
      simp only [Atom.str, List.cons_append, List.nil_append, List.cons.injEq, true_and] at hu
      subst hu
      exact fun hw => hr.nameEnd.1 c hc (Or.inl hw)
  exact ⟨_, .call_ok gp_atom_or_par (.or_ok (.call_ok gp_atom (.or_next hf (.or_next (match_fail' (by simp [Atom.str]))
    (.or_next hn (.or_ok (.call_ok gp_dot (litOk (l := c!"."))))))))), run_atom run_dot⟩

theorem atom_of_par {g1 g2 : Gaps} {e : Syntax.Alt} (h1 : GapsOK g1) (he : e.OK) (h2 : GapsOK g2) (h : AltReads e) : AtomReads (.par g1 e g2) := by
  intro r hr
  have e0 : (Atom.par g1 e g2).str ++ r = '(' :: (gapsStr g1 ++ (e.str ++ (gapsStr g2 ++ ')' :: r))) := by simp [Atom.str]
  obtain ⟨c, t, el, hc⟩ := alt_start he
  obtain ⟨ne, p2, q2⟩ := expr_reads h (paren_end h2 r)
  obtain ⟨n1, p1⟩ := ws_ok (r := e.str ++ (gapsStr g2 ++ ')' :: r)) h1 (by rw [el]; exact hc.noGap)
  obtain ⟨n3, p3⟩ := ws_ok (r := ')' :: r) h2 (NoGap.of (by decide))
  have hp : Peg GP (.ruleName c!"parenth") ('(' :: (gapsStr g1 ++ (e.str ++ (gapsStr g2 ++ ')' :: r)))) (.ok r _) :=
    .call_ok gp_parenth (andC lit1 (andC p1 (andC p2 (andC p3 (and1 (.or_ok lit1))))))
  have hf : Peg GP (.ruleName c!"atom") ('(' :: (gapsStr g1 ++ (e.str ++ (gapsStr g2 ++ ')' :: r)))) .fail := by
    refine .call_fail gp_atom (.or_next (lit_fail' (by simp) (by simp)) (.or_next (match_fail' (by simp)) (.or_next (name_fail ?_ ?_)
      (.or_next (.call_fail gp_dot (litF (by simp))) (.or_nil _)))))
    · intro d hd; cases hd; decide
    · intro u hu; cases hu
  rw [e0]
  exact ⟨_, .call_ok gp_atom_or_par (.or_next hf (.or_ok hp)), (run_parenth (run_par q2)).as (by rw [within_within, within_within, within_within]; rfl)⟩

mutual
theorem atom_reads : ∀ a : Syntax.Atom, a.OK → AtomReads a
  | .lit l, h => atom_of_literal (by rw [Atom.OK] at h; exact h)
  | .cls cs rs, h => atom_of_class (by rw [Atom.OK] at h; exact h)
  | .ref n, h => atom_of_ref (by rw [Atom.OK] at h; exact h)
  | .dot, _ => atom_of_dot
  | .par g1 e g2, h => by
    rw [Atom.OK] at h
    exact atom_of_par h.1 h.2.1 h.2.2 (alt_reads e h.2.1)
theorem item_reads : ∀ i : Syntax.Item, i.OK → ItemReads i
  | .plain a, h => by
    rw [Item.OK] at h
    intro r hr
    obtain ⟨ns, h1, h2⟩ := atom_reads a h r hr.atom
    have h3 := andC h1 (and1 (opt_none (suffix_none hr)))
    exact ⟨_, .call_ok gp_rep_or_neg (.or_ok h3), run_plain h2⟩
  | .star a, h => by
    rw [Item.OK] at h
    exact suffixItem_reads (c := '*') (g := fun e => .rep e 0 none) (by simp) (atom_reads a h) rfl rfl rfl fun _ => rfl
  | .plus a, h => by
    rw [Item.OK] at h
    exact suffixItem_reads (c := '+') (g := fun e => .rep e 1 none) (by simp) (atom_reads a h) rfl rfl rfl fun _ => rfl
  | .opt a, h => by
    rw [Item.OK] at h
    exact suffixItem_reads (c := '?') (g := fun e => .rep e 0 (some 1)) (by simp) (atom_reads a h) rfl rfl rfl fun _ => rfl
  | .not a, h => by
    rw [Item.OK] at h
    intro r hr
    obtain ⟨ns, h1, h2⟩ := atom_reads a h r hr.atom
    have hf : Peg GP (.ruleName c!"atom_or_par") ((Syntax.Item.not a).str ++ r) .fail :=
      atomOrPar_fail fun c hc => by cases hc; exact Or.inr rfl
    exact ⟨_, .call_ok gp_rep_or_neg (.or_next (.and_fail hf) (.or_ok (andC lit1 (and1 h1)))), run_not h2⟩
theorem seq_reads : ∀ s : Syntax.Seq, s.OK → SeqReads s
  | .err g1 g2 l g3, h => by
    rw [Seq.OK] at h
    intro r _
    exact errSeq_reads h r
  | .item i t, h => by
    rw [Seq.OK] at h
    intro r hr
    rw [Seq.str, List.append_assoc]
    exact itemSeq_reads h.1 h.2.1 h.2.2 (item_reads i h.1) (tail_reads t h.2.1) hr
theorem tail_reads : ∀ t : Syntax.Tail, t.OK → TailReads t
  | .nil, _ => by
    intro r hr
    refine ⟨[], .rep_stop (by simp) (tail_stop hr), ?_, fun _ => flatList_nil, fun h => absurd rfl h⟩
    rw [flatList_nil]
    exact rest_nil
  | .item g i t, h => by
    rw [Tail.OK] at h
    intro r hr
    obtain ⟨na, h1, h2⟩ := itemSeq_reads h.2.1 h.2.2.1 h.2.2.2 (item_reads i h.2.1) (tail_reads t h.2.2.1) hr
    rw [Tail.str, List.append_assoc, List.append_assoc]
    obtain ⟨c, u, e, hc⟩ := item_start h.2.1
    obtain ⟨q, n1, n2, h3, h4⟩ := sep_ok (r := i.str ++ (t.str ++ r)) h.1 (by rw [e]; exact hc.noGap)
    have h5 := item_noHead h.2.1 (tail_follow h.2.2.1 hr) (tail_after h.2.2.1 hr)
    have h6 : Peg GP eTail (gapsStr g ++ (i.str ++ (t.str ++ r))) (.ok r _) := andC h3 (andC h4 (andC (.not_fail h5) (and1 h1)))
    have e0 : flatList ([.rule c!"_1" n1] ++ ([.rule c!"_" n2] ++ ([] ++ [.rule c!"and" na])) ++ []) = flatRule c!"and" na := by
      rw [List.append_nil, List.nil_append, List.singleton_append, List.singleton_append, flatList_rule, flatList_rule, flatList_one,
        flatRule, if_pos (by decide), flatRule, if_pos (by decide)]
      rfl
    refine ⟨_, .rep_more (by simp) h6 (.rep_stop (by simp) (tail_stop hr)), ?_, fun h => (by cases h), fun _ => ⟨na, [], ?_⟩⟩
    · rw [e0]
      exact rest_and h2
    · rw [e0, List.append_nil]
  | .err g g1 g2 l g3 t, h => by
    rw [Tail.OK] at h
    intro r hr
    obtain ⟨na, h1, h2⟩ := errSeq_reads h.2.1 (t.str ++ r)
    obtain ⟨nt, h7, h8, h9, h10⟩ := tail_reads t h.2.2 r hr
    rw [Tail.str, List.append_assoc, List.append_assoc]
    obtain ⟨q, n1, n2, h3, h4⟩ := sep_ok (r := errStr g1 g2 l g3 ++ (t.str ++ r)) h.1 (Start.noGap (c := 'e') (by decide))
    have h5 := err_noHead h.2.1 (t.str ++ r)
    have h6 : Peg GP eTail (gapsStr g ++ (errStr g1 g2 l g3 ++ (t.str ++ r))) (.ok (t.str ++ r) _) :=
      andC h3 (andC h4 (andC (.not_fail h5) (and1 h1)))
    have e0 : flatList ([.rule c!"_1" n1] ++ ([.rule c!"_" n2] ++ ([] ++ [.rule c!"and" na])) ++ nt) = flatRule c!"and" na ++ flatList nt := by
      rw [List.nil_append, List.append_assoc, List.singleton_append, List.append_assoc, List.singleton_append, List.singleton_append,
        flatList_rule, flatList_rule, flatList_rule, flatRule, if_pos (by decide), flatRule, if_pos (by decide)]
      rfl
    refine ⟨_, .rep_more (by simp) h6 h7, ?_, fun h => (by cases h), fun _ => ⟨na, flatList nt, e0⟩⟩
    rw [e0]
    by_cases ht : t = .nil
    · rw [h9 ht, List.append_nil]
      have : (Syntax.Tail.err g g1 g2 l g3 t).denote = l.val.map fun v => [.simple (.error v)] := by rw [ht, Tail.denote]
      have hx : (Syntax.Tail.err g g1 g2 l g3 t).fault = within [c!"consuming and", c!"consuming error"] l.fault := by rw [ht, Tail.fault]
      rw [this, hx]
      exact rest_and h2
    · obtain ⟨nb, more, e1⟩ := h10 ht
      have : (Syntax.Tail.err g g1 g2 l g3 t).denote = none := by
        rw [Tail.denote]
        exact ht
      have hx : (Syntax.Tail.err g g1 g2 l g3 t).fault =
          first (within [c!"consuming and", c!"consuming error"] l.fault) (some ⟨[], c!"expected end rule for and"⟩) := by
        rw [Tail.fault]
        exact ht
      rw [this, hx, e1]
      exact rest_more h2
theorem alt_reads : ∀ a : Syntax.Alt, a.OK → AltReads a
  | .one s, h => by
    rw [Alt.OK] at h
    intro r hr
    obtain ⟨na, h1, h2⟩ := seq_reads s h r hr.toSeqEnd
    have h3 := run_or_one (run_consumeAnd h2 (seq_denote_ne s))
    rw [Option.map_map] at h3
    have h4 := andC h1 (and1 (opt_none (slash_stop hr)))
    exact ⟨_, .call_ok gp_or h4, h3⟩
  | .cons s g1 g2 a, h => by
    rw [Alt.OK] at h
    intro r hr
    have e : (Alt.cons s g1 g2 a).str ++ r = s.str ++ (gapsStr g1 ++ '/' :: (gapsStr g2 ++ (a.str ++ r))) := by simp [Alt.str]
    obtain ⟨na, h1, h2⟩ := seq_reads s h.1 _ (slash_end h.2.1 h.2.2.1 h.2.2.2 r)
    obtain ⟨nb, h3, h4⟩ := alt_reads a h.2.2.2 r hr
    obtain ⟨c, u, ea, hc⟩ := alt_start h.2.2.2
    obtain ⟨n1, h5⟩ := ws_ok h.2.1 (slash_noGap h.2.2.1 h.2.2.2 r)
    obtain ⟨n2, h6⟩ := ws_ok (r := a.str ++ r) h.2.2.1.1 (by rw [ea]; exact hc.noGap)
    have h7 := run_or_cons (n1 := n1) (n2 := n2) (run_consumeAnd h2 (seq_denote_ne s)) h4
    have e2 : (s.denote.map seqOf).bind (fun e => a.denote.map (e :: ·)) = (Alt.cons s g1 g2 a).denote := by
      rw [Alt.denote]
      cases s.denote <;> rfl
    rw [e2] at h7
    rw [e]
    exact ⟨_, .call_ok gp_or (andC h1 (and1 (opt_some (andC h5 (andC lit1 (andC h6 (and1 h3))))))), h7⟩
end

end DP
