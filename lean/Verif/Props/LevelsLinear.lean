/-
C98, continued: the rules for the levels of precedence are LL(1), and so parsed in linear time.
-/
import Verif.Props.Levels
import Verif.Props.Linear

namespace DP
open Spec

section
variable {cs : Str} {rs : List (Char × Char)} {a : Str} {lv : List (Str × Char)} {G : Str → Option Expr}

/-- `[..]+` -/
abbrev wordsExpr (cs : Str) (rs : List (Char × Char)) (k : Nat) : Expr := .rep (letterExpr cs rs) k none
/-- `'(' main ')'` -/
abbrev parExpr (a : Str) (lv : List (Str × Char)) : Expr := .and [.simple (.literal ['(']), .ruleName (nextName a lv), .simple (.literal [')'])]
/-- `'o' m` -/
abbrev moreExpr (a : Str) (o : Char) (ls : List (Str × Char)) : Expr := .and [.simple (.literal [o]), .ruleName (nextName a ls)]

/-- the rules are these and no others -/
def OnlyLevels (cs : Str) (rs : List (Char × Char)) (a : Str) (lv : List (Str × Char)) (G : Str → Option Expr) : Prop :=
  ∀ n e, G n = some e → (n = a ∧ e = .or [wordsExpr cs rs 1, parExpr a lv]) ∨
    ∃ o ls, (n, o) :: ls <:+ lv ∧ e = .and [.ruleName (nextName a ls), .rep (moreExpr a o ls) 0 none]

/-! ### How derived texts begin -/

theorem gen_words {u ns} (h : Gen G (wordsExpr cs rs 1) u ns) : ∃ c v, u = c :: v ∧ InClass cs rs c := by
  cases h with
  | more _ h1 h2 =>
    cases h1 with
    | cls hc => exact ⟨_, _, rfl, hc⟩

theorem gen_lit {l : Str} {es u ns} (h : Gen G (.and (.simple (.literal l) :: es)) u ns) : ∃ v, u = l ++ v := by
  cases h with
  | cons h1 h2 =>
    cases h1
    exact ⟨_, rfl⟩

theorem gen_nil {u ns} (h : Gen G (.and []) u ns) : u = [] := by
  cases h
  rfl

theorem gen_more {e : Expr} {mx u ns} (h : Gen G (.rep e 0 mx) u ns) : u = [] ∨ ∃ v w ms, u = v ++ w ∧ Gen G e v ms := by
  cases h with
  | none => exact .inl rfl
  | full => exact .inl rfl
  | more _ h1 h2 => exact .inr ⟨_, _, _, rfl, h1⟩

theorem gen_name (hG : LevelG cs rs a lv G) : ∀ ls, ls <:+ lv → ∀ {u ns}, Gen G (.ruleName (nextName a ls)) u ns →
    ∃ c v, u = c :: v ∧ (InClass cs rs c ∨ c = '(')
  | [], _, u, ns, h => by
    cases h with
    | call he h =>
      rw [nextName, hG.atom] at he
      cases he
      cases h with
      | or hm h =>
        simp only [List.mem_cons, List.not_mem_nil, or_false] at hm
        rcases hm with rfl | rfl
        · obtain ⟨c, v, h1, h2⟩ := gen_words h
          exact ⟨c, v, h1, .inl h2⟩
        · obtain ⟨v, rfl⟩ := gen_lit h
          exact ⟨'(', v, rfl, .inr rfl⟩
  | (n, o) :: ls, hs, u, ns, h => by
    cases h with
    | call he h =>
      rw [nextName, hG.level n o ls hs] at he
      cases he
      cases h with
      | cons h1 h2 =>
        obtain ⟨c, v, rfl, h3⟩ := gen_name hG ls (suffix_tail hs) h1
        exact ⟨c, _, rfl, h3⟩

/-! ### What can follow -/

/-- no letter, and no operator that binds as tight -/
def MayFollow (cs : Str) (rs : List (Char × Char)) (ls : List (Str × Char)) (x : Option Char) : Prop :=
  ∀ c, x = some c → ¬ InClass cs rs c ∧ ∀ l ∈ ls, l.2 ≠ c

/-- the parts of the rules, with what can follow -/
inductive LevelPart (cs : Str) (rs : List (Char × Char)) (a : Str) (lv : List (Str × Char)) : Expr → Option Char → Prop
  | name {ls x} : ls <:+ lv → MayFollow cs rs ls x → LevelPart cs rs a lv (.ruleName (nextName a ls)) x
  | level {n o ls x} : (n, o) :: ls <:+ lv → MayFollow cs rs ((n, o) :: ls) x →
      LevelPart cs rs a lv (.and [.ruleName (nextName a ls), .rep (moreExpr a o ls) 0 none]) x
  | level2 {n o ls x} : (n, o) :: ls <:+ lv → MayFollow cs rs ((n, o) :: ls) x → LevelPart cs rs a lv (.and [.rep (moreExpr a o ls) 0 none]) x
  | rep {n o ls x} : (n, o) :: ls <:+ lv → MayFollow cs rs ((n, o) :: ls) x → LevelPart cs rs a lv (.rep (moreExpr a o ls) 0 none) x
  | more {n o ls x} : (n, o) :: ls <:+ lv → MayFollow cs rs ls x → LevelPart cs rs a lv (moreExpr a o ls) x
  | more2 {ls x} : ls <:+ lv → MayFollow cs rs ls x → LevelPart cs rs a lv (.and [.ruleName (nextName a ls)]) x
  | nil {x} : LevelPart cs rs a lv (.and []) x
  | simple {y x} : LevelPart cs rs a lv (.simple y) x
  | atom {x} : MayFollow cs rs [] x → LevelPart cs rs a lv (.or [wordsExpr cs rs 1, parExpr a lv]) x
  | atom2 {x} : LevelPart cs rs a lv (.or [parExpr a lv]) x
  | atom3 {x} : LevelPart cs rs a lv (.or []) x
  | words {k x} : MayFollow cs rs [] x → LevelPart cs rs a lv (wordsExpr cs rs k) x
  | par {x} : LevelPart cs rs a lv (parExpr a lv) x
  | par2 {x} : LevelPart cs rs a lv (.and [.ruleName (nextName a lv), .simple (.literal [')'])]) x
  | par3 {x} : LevelPart cs rs a lv (.and [.simple (.literal [')'])]) x

theorem follow_part (hG : LevelG cs rs a lv G) (hC : LevelC cs rs lv) (hm : nextName a lv = c!"main") {e x} (h : Follow G e x) :
    LevelPart cs rs a lv e x := by
  have hop : ∀ {n o ls}, (n, o) :: ls <:+ lv → MayFollow cs rs ls (some o) := by
    intro n o ls hs c hc
    cases hc
    have hd := (List.Sublist.map Prod.snd hs.sublist).nodup hC.distinct
    rw [List.map_cons, List.nodup_cons] at hd
    exact ⟨hC.outside (n, o) (hs.subset List.mem_cons_self), fun l hl he => hd.1 (List.mem_map.2 ⟨l, hl, he⟩)⟩
  have hcons : ∀ {p : Str × Char} {ls x}, MayFollow cs rs (p :: ls) x → MayFollow cs rs ls x :=
    fun h c hc => ⟨(h c hc).1, fun l hl => (h c hc).2 l (List.mem_cons_of_mem _ hl)⟩
  have hmore : ∀ {o ls mx c}, First G (.rep (moreExpr a o ls) 0 mx) c → c = o := by
    rintro o ls mx c ⟨u, ns, h⟩
    rcases gen_more h with h | ⟨v, w, ms, h1, h2⟩
    · cases h
    · obtain ⟨v', rfl⟩ := gen_lit h2
      cases h1
      rfl
  have hno : ∀ {c}, ¬ First G (.and []) c := fun ⟨u, ns, h⟩ => by cases gen_nil h
  induction h with
  | main => rw [← hm]; exact .name (List.suffix_refl _) (fun c hc => by cases hc)
  | body he _ ih =>
    generalize hx : Expr.ruleName _ = e' at ih
    cases ih with
    | @name ls x hs hf =>
      cases hx
      cases ls with
      | nil =>
        rw [nextName, hG.atom] at he
        cases he
        exact .atom hf
      | cons p ls =>
        rw [nextName, hG.level _ _ ls hs] at he
        cases he
        exact .level hs hf
    | _ => cases hx
  | @next e es x c _ hf ih =>
    cases ih with
    | @level _ o _ _ hs h =>
      refine .name (suffix_tail hs) ?_
      obtain ⟨u, ns, hg⟩ := hf
      have : c = o := by
        generalize hu : c :: u = u' at hg
        cases hg with
        | cons h1 h2 =>
          cases gen_nil h2
          rw [List.append_nil] at hu
          subst hu
          exact hmore ⟨u, _, h1⟩
      subst this
      exact hop hs
    | level2 => exact absurd hf hno
    | more => exact .simple
    | more2 => exact absurd hf hno
    | par => exact .simple
    | par2 =>
      refine .name (List.suffix_refl _) ?_
      obtain ⟨u, ns, hg⟩ := hf
      obtain ⟨v, hv⟩ := gen_lit hg
      cases hv
      intro d hd
      cases hd
      exact ⟨hC.closeC, hC.close⟩
    | par3 => exact .simple
  | last _ _ ih =>
    cases ih with
    | level hs h => exact .name (suffix_tail hs) (hcons h)
    | level2 hs h => exact .rep hs h
    | more => exact .simple
    | more2 hs h => exact .name hs h
    | par => exact .simple
    | par2 =>
      rename_i hnul _
      obtain ⟨ns, hg⟩ := hnul
      obtain ⟨v, hv⟩ := gen_lit hg
      cases hv
    | par3 => exact .simple
  | rest _ ih =>
    cases ih with
    | level hs h => exact .level2 hs h
    | level2 => exact .nil
    | more hs h => exact .more2 (suffix_tail hs) h
    | more2 => exact .nil
    | par => exact .par2
    | par2 => exact .par3
    | par3 => exact .nil
  | alternative _ ih =>
    cases ih with
    | atom h => exact .words h
    | atom2 => exact .par
  | alternatives _ ih =>
    cases ih with
    | atom h => exact .atom2
    | atom2 => exact .atom3
  | again _ _ hf ih =>
    cases ih with
    | rep hs h =>
      cases hmore hf
      exact .more hs (hop hs)
    | words => exact .simple
  | once _ _ _ ih =>
    cases ih with
    | rep hs h => exact .more hs (hcons h)
    | words => exact .simple
  | repeats _ _ ih =>
    cases ih with
    | rep hs h => exact .rep hs h
    | words h => exact .words h

theorem level_ll1 (hG : LevelG cs rs a lv G) (hC : LevelC cs rs lv) (hm : nextName a lv = c!"main") : LL1 G where
  choice := by
    intro e e' es x h
    cases follow_part hG hC hm h with
    | atom hf =>
      refine ⟨?_, ?_⟩
      · rintro ⟨ns, h⟩
        obtain ⟨c, v, h1, _⟩ := gen_words h
        cases h1
      · rintro c ⟨u, ns, h1⟩
        obtain ⟨c', v, h2, h3⟩ := gen_words h1
        cases h2
        constructor
        · rintro ⟨u, ns, h4⟩
          cases h4 with
          | or hmem h4 =>
            rw [List.mem_singleton.1 hmem] at h4
            obtain ⟨v, hv⟩ := gen_lit h4
            cases hv
            exact hC.openC h3
        · rintro ⟨ns, h4⟩
          cases h4 with
          | or hmem h4 =>
            rw [List.mem_singleton.1 hmem] at h4
            obtain ⟨v, hv⟩ := gen_lit h4
            cases hv
  repetition := by
    intro e mx x h _
    cases follow_part hG hC hm h with
    | rep hs hf =>
      refine ⟨?_, ?_⟩
      · rintro ⟨ns, h⟩
        obtain ⟨v, hv⟩ := gen_lit h
        cases hv
      · rintro c ⟨u, ns, h1⟩ rfl
        obtain ⟨v, hv⟩ := gen_lit h1
        cases hv
        exact (hf _ rfl).2 _ List.mem_cons_self rfl
    | words hf =>
      refine ⟨?_, ?_⟩
      · rintro ⟨ns, h⟩
        cases h
      · rintro c ⟨u, ns, h1⟩ rfl
        cases h1 with
        | cls hc => exact (hf _ rfl).1 hc

/-! ### Well-formed, plain and productive -/

theorem name_defined (hG : LevelG cs rs a lv G) {ls} (hs : ls <:+ lv) : ∃ e, G (nextName a ls) = some e := by
  cases ls with
  | nil => exact ⟨_, hG.atom⟩
  | cons p ls => exact ⟨_, hG.level _ _ ls hs⟩

theorem level_plain (hG : LevelG cs rs a lv G) (hO : OnlyLevels cs rs a lv G) : ∀ n e, G n = some e → Plain G e := by
  intro n e h
  rcases hO n e h with ⟨rfl, rfl⟩ | ⟨o, ls, hs, rfl⟩
  · obtain ⟨e', he'⟩ := name_defined hG (List.suffix_refl lv)
    refine .or fun x hx => ?_
    simp only [List.mem_cons, List.not_mem_nil, or_false] at hx
    rcases hx with rfl | rfl
    · exact .rep (.cls _ _)
    · refine .and fun x hx => ?_
      simp only [List.mem_cons, List.not_mem_nil, or_false] at hx
      rcases hx with rfl | rfl | rfl
      exacts [.lit _, .call he', .lit _]
  · obtain ⟨e', he'⟩ := name_defined hG (suffix_tail hs)
    refine .and fun x hx => ?_
    simp only [List.mem_cons, List.not_mem_nil, or_false] at hx
    rcases hx with rfl | rfl
    · exact .call he'
    · refine .rep (.and fun x hx => ?_)
      simp only [List.mem_cons, List.not_mem_nil, or_false] at hx
      rcases hx with rfl | rfl
      exacts [.lit _, .call he']

theorem name_derives (hG : LevelG cs rs a lv G) {c : Char} (hc : InClass cs rs c) : ∀ ls, ls <:+ lv → ∃ u ns, Gen G (.ruleName (nextName a ls)) u ns
  | [], _ => ⟨_, _, .call hG.atom (.or List.mem_cons_self (.more (by simp) (.cls hc) (.none _ _)))⟩
  | (n, o) :: ls, hs => by
    obtain ⟨u, ns, h⟩ := name_derives hG hc ls (suffix_tail hs)
    exact ⟨_, _, .call (hG.level n o ls hs) (.cons h (.cons (.none _ _) .nil))⟩

theorem level_productive (hG : LevelG cs rs a lv G) (hO : OnlyLevels cs rs a lv G) {c : Char} (hc : InClass cs rs c) : Productive G := by
  intro n e h
  have hw : ∃ u ns, Gen G (wordsExpr cs rs 1) u ns := ⟨_, _, .more (by simp) (.cls hc) (.none _ _)⟩
  have simp_ : ∀ {y}, y ≠ .eof → (∀ m, y ≠ .error m) → (∀ cs' rs', y = .mtch cs' rs' → cs' = cs ∧ rs' = rs) →
      ∀ x, Sub x (.simple y) → ∃ u ns, Gen G x u ns := by
    intro y h1 h2 h3 x hx
    cases hx
    cases y with
    | literal l => exact ⟨_, _, .lit l⟩
    | mtch cs' rs' =>
      obtain ⟨rfl, rfl⟩ := h3 _ _ rfl
      exact ⟨_, _, .cls hc⟩
    | dot => exact ⟨_, _, .dot c⟩
    | error m => exact absurd rfl (h2 m)
    | eof => exact absurd rfl h1
  have name_ : ∀ {ls}, ls <:+ lv → ∀ x, Sub x (.ruleName (nextName a ls)) → ∃ u ns, Gen G x u ns := by
    intro ls hs x hx
    cases hx
    exact name_derives hG hc ls hs
  have lit_ : ∀ {l} x, Sub x (.simple (.literal l)) → ∃ u ns, Gen G x u ns :=
    fun x hx => simp_ (by simp) (by simp) (by simp) x hx
  rcases hO n e h with ⟨rfl, rfl⟩ | ⟨o, ls, hs, rfl⟩
  · intro x hx
    cases hx with
    | refl =>
      obtain ⟨u, ns, h⟩ := hw
      exact ⟨u, ns, .or List.mem_cons_self h⟩
    | or hmem hx =>
      simp only [List.mem_cons, List.not_mem_nil, or_false] at hmem
      rcases hmem with rfl | rfl
      · cases hx with
        | refl => exact hw
        | rep hx => exact simp_ (by simp) (by simp) (by simp) x hx
      · cases hx with
        | refl =>
          obtain ⟨u, ns, h⟩ := name_derives hG hc lv (List.suffix_refl _)
          exact ⟨_, _, .cons (.lit _) (.cons h (.cons (.lit _) .nil))⟩
        | and hmem hx =>
          simp only [List.mem_cons, List.not_mem_nil, or_false] at hmem
          rcases hmem with rfl | rfl | rfl
          exacts [lit_ x hx, name_ (List.suffix_refl _) x hx, lit_ x hx]
  · obtain ⟨u, ns, hu⟩ := name_derives hG hc ls (suffix_tail hs)
    intro x hx
    cases hx with
    | refl => exact ⟨_, _, .cons hu (.cons (.none _ _) .nil)⟩
    | and hmem hx =>
      simp only [List.mem_cons, List.not_mem_nil, or_false] at hmem
      rcases hmem with rfl | rfl
      · exact name_ (suffix_tail hs) x hx
      · cases hx with
        | refl => exact ⟨_, _, .none _ _⟩
        | rep hx =>
          cases hx with
          | refl => exact ⟨_, _, .cons (.lit _) (.cons hu .nil)⟩
          | and hmem hx =>
            simp only [List.mem_cons, List.not_mem_nil, or_false] at hmem
            rcases hmem with rfl | rfl
            exacts [lit_ x hx, name_ (suffix_tail hs) x hx]

theorem lit_not_empty {c : Char} {s : Str} : ¬ CanEmpty G (.simple (.literal (c :: s))) := fun h => by cases h

theorem and_not_empty {e : Expr} {es : List Expr} (he : ¬ CanEmpty G e) : ¬ CanEmpty G (.and (e :: es)) := fun h => by
  cases h with
  | and h => exact he (h e List.mem_cons_self)

theorem letter_not_empty : ¬ CanEmpty G (letterExpr cs rs) := fun h => by cases h

theorem name_not_empty (hG : LevelG cs rs a lv G) : ∀ ls, ls <:+ lv → ¬ CanEmpty G (.ruleName (nextName a ls))
  | [], _, h => by
    cases h with
    | call he h =>
      rw [nextName, hG.atom] at he
      cases he
      cases h with
      | or hmem h =>
        simp only [List.mem_cons, List.not_mem_nil, or_false] at hmem
        rcases hmem with rfl | rfl
        · cases h with
          | rep h => exact letter_not_empty h
        · exact and_not_empty lit_not_empty h
  | (n, o) :: ls, hs, h => by
    cases h with
    | call he h =>
      rw [nextName, hG.level n o ls hs] at he
      cases he
      exact and_not_empty (name_not_empty hG ls (suffix_tail hs)) h

/-- a sequence calls first what its first part calls, if that is not empty -/
theorem leftCalls_head {e : Expr} {es : List Expr} {n : Str} (he : ¬ CanEmpty G e) (h : LeftCalls G (.and (e :: es)) n) : LeftCalls G e n := by
  generalize hx : e :: es = l at h
  cases h with
  | @and pre e' post _ hp h =>
    cases pre with
    | nil => cases hx; exact h
    | cons y pre =>
      cases hx
      exact absurd (hp e List.mem_cons_self) he

theorem idxOf_suffix {names : List Str} (hn : names.Nodup) {n : Str} {post : List Str} (h : n :: post <:+ names) :
    names.idxOf n + post.length + 1 = names.length := by
  obtain ⟨pre, rfl⟩ := h
  rw [List.nodup_append] at hn
  have hni : n ∉ pre := fun hm => hn.2.2 n hm n List.mem_cons_self rfl
  rw [List.idxOf_append_of_notMem hni, List.idxOf_cons_self]
  simp
  omega

theorem names_suffix {n : Str} {o : Char} {ls : List (Str × Char)} (h : (n, o) :: ls <:+ lv) : n :: (ls.map Prod.fst ++ [a]) <:+ lv.map Prod.fst ++ [a] := by
  obtain ⟨pre, rfl⟩ := h
  exact ⟨pre.map Prod.fst, by simp⟩

theorem next_suffix (hs : ls <:+ lv) : ∃ post, nextName a ls :: post = ls.map Prod.fst ++ [a] := by
  cases ls with
  | nil => exact ⟨[], rfl⟩
  | cons p ls => exact ⟨ls.map Prod.fst ++ [a], rfl⟩

theorem level_wf (hn : (lv.map Prod.fst ++ [a]).Nodup) (hG : LevelG cs rs a lv G) (hO : OnlyLevels cs rs a lv G) : WellFormed G where
  no_left_recursion := by
    have step : ∀ n m, LeftStep G n m → (lv.map Prod.fst ++ [a]).idxOf n < (lv.map Prod.fst ++ [a]).idxOf m := by
      rintro n m ⟨e, he, h⟩
      rcases hO n e he with ⟨rfl, rfl⟩ | ⟨o, ls, hs, rfl⟩
      · cases h with
        | or hmem h =>
          simp only [List.mem_cons, List.not_mem_nil, or_false] at hmem
          rcases hmem with rfl | rfl
          · cases h with
            | rep h => cases h
          · have := leftCalls_head lit_not_empty h
            cases this
      · have := leftCalls_head (name_not_empty hG ls (suffix_tail hs)) h
        cases this
        obtain ⟨post, hp⟩ := next_suffix (a := a) (suffix_tail hs)
        have h1 := idxOf_suffix hn (names_suffix (a := a) hs)
        have hs2 : nextName a ls :: post <:+ lv.map Prod.fst ++ [a] := by
          rw [hp]
          obtain ⟨pre, rfl⟩ := hs
          exact ⟨pre.map Prod.fst ++ [n], by simp⟩
        have h2 := idxOf_suffix hn hs2
        have h3 := congrArg List.length hp
        simp only [List.length_cons, List.length_append, List.length_map, List.length_nil] at h1 h2 h3
        omega
    have trans : ∀ n m, Relation.TransGen (LeftStep G) n m → (lv.map Prod.fst ++ [a]).idxOf n < (lv.map Prod.fst ++ [a]).idxOf m := by
      intro n m h
      induction h with
      | single h => exact step _ _ h
      | tail _ h ih => exact Nat.lt_trans ih (step _ _ h)
    intro n h
    exact Nat.lt_irrefl _ (trans n n h)
  no_empty_repetition := by
    intro n e b mn he hsub
    rcases hO n e he with ⟨rfl, rfl⟩ | ⟨o, ls, hs, rfl⟩
    · cases hsub with
      | or hmem hx =>
        simp only [List.mem_cons, List.not_mem_nil, or_false] at hmem
        rcases hmem with rfl | rfl
        · cases hx with
          | refl => exact letter_not_empty
          | rep hx => cases hx
        · cases hx with
          | and hmem hx =>
            simp only [List.mem_cons, List.not_mem_nil, or_false] at hmem
            rcases hmem with rfl | rfl | rfl <;> cases hx
    · cases hsub with
      | and hmem hx =>
        simp only [List.mem_cons, List.not_mem_nil, or_false] at hmem
        rcases hmem with rfl | rfl
        · cases hx
        · cases hx with
          | refl => exact and_not_empty lit_not_empty
          | rep hx =>
            cases hx with
            | and hmem hx =>
              simp only [List.mem_cons, List.not_mem_nil, or_false] at hmem
              rcases hmem with rfl | rfl <;> cases hx

theorem levelEntries_only (a : Str) : ∀ (lv : List (Str × Char)) {ne}, ne ∈ levelEntries a lv →
    ∃ o ls, (ne.1, o) :: ls <:+ lv ∧ ne.2 = .and [.ruleName (nextName a ls), .rep (moreExpr a o ls) 0 none]
  | [], _, h => by cases h
  | (n, o) :: lv, ne, h => by
    rw [levelEntries] at h
    rcases List.mem_cons.1 h with rfl | h
    · exact ⟨o, lv, List.suffix_refl _, rfl⟩
    · obtain ⟨p, ls, h1, h2⟩ := levelEntries_only a lv h
      exact ⟨p, ls, h1.trans (List.suffix_cons _ _), h2⟩

theorem level_only (hm : nextName a lv = c!"main") : OnlyLevels cs rs a lv (grammar (levelRules cs rs a lv)) := by
  intro n e h
  have hmem : (n, e) ∈ (levelRules cs rs a lv).entries := by
    unfold grammar at h
    generalize (levelRules cs rs a lv).entries = l at h
    induction l with
    | nil => cases h
    | cons x l ih =>
      rw [List.lookup_cons] at h
      by_cases hx : n == x.1
      · rw [hx] at h
        cases h
        rw [beq_iff_eq] at hx
        subst hx
        exact List.mem_cons_self
      · simp only [hx] at h
        exact List.mem_cons_of_mem _ (ih h)
  rcases List.mem_append.1 hmem with h | h
  · exact .inr (levelEntries_only a lv h)
  · cases List.mem_singleton.1 h
    rw [← hm]
    exact .inl ⟨rfl, rfl⟩

/-- **C98**: whatever the text, accepted or not, `parse` takes at most linear work. -/
theorem C98_linear (hn : (lv.map Prod.fst ++ [a]).Nodup) (hm : nextName a lv = c!"main") (hC : LevelC cs rs lv) {c : Char} (hc : InClass cs rs c) :
    ∃ K, ∀ s, Ascii s → ∃ m, Uses s (levelRules cs rs a lv) m ∧ m.calls ≤ K * (s.length + 1) := by
  have hG := levelRules_G (cs := cs) (rs := rs) hn hm
  have hO := level_only (cs := cs) (rs := rs) hm
  have hd := denotes_of_boundsOK (level_bounds cs rs a lv)
  exact C67_linear (by rw [hd]; exact level_wf hn hG hO) (by rw [hd]; exact level_plain hG hO) (by rw [hd]; exact level_ll1 hG hC hm)
    (by rw [hd]; exact level_productive hG hO hc)

end

/-- three levels -/
example : ∃ K, ∀ s, Ascii s → ∃ m, Uses s (levelRules [] [('0', '9')] c!"a" [(c!"main", '+'), (c!"t", '*'), (c!"p", '^')]) m ∧
    m.calls ≤ K * (s.length + 1) :=
  C98_linear (by decide) rfl ⟨by decide, by simp [InClass], by decide, by simp [InClass], by simp [InClass]⟩ (c := '0') (by simp [InClass])

end DP
