/-
C92: what Rust reads in the code generated for literals with backslashes, which `rust_from_rules` does not escape
(src/peg/gcode.rs:86-91).
-/
import Verif.Spec.CodeOf
import Verif.Props.Gcode
import Verif.Props.Requote

namespace DP
open Spec Gcode

/-- a character that is no escape stands for itself -/
theorem replaceEsc_plain {v b : Str} {c : Char} (h : replaceEsc v = c :: b) (hc : c ≠ '\\') : ∃ v', v = c :: v' ∧ replaceEsc v' = b := by
  cases v with
  | nil => cases h
  | cons x v =>
    rw [replaceEsc_cons] at h
    unfold escOf at h
    split at h
    · injection h with h1 h2; exact absurd h1.symm hc
    split at h
    · injection h with h1 h2; exact absurd h1.symm hc
    split at h
    · injection h with h1 h2; exact absurd h1.symm hc
    split at h
    · injection h with h1 h2; exact absurd h1.symm hc
    · injection h with h1 h2; exact ⟨v, by rw [h1], h2⟩

/-- where a backslash comes from -/
theorem replaceEsc_bs {v b : Str} (h : replaceEsc v = '\\' :: b) :
    (∃ v', v = '\\' :: v' ∧ replaceEsc v' = b) ∨ (∃ v', v = '\n' :: v' ∧ 'n' :: replaceEsc v' = b) ∨
    (∃ v', v = '\r' :: v' ∧ 'r' :: replaceEsc v' = b) ∨ (∃ v', v = '\t' :: v' ∧ 't' :: replaceEsc v' = b) ∨
    (∃ v', v = '"' :: v' ∧ '"' :: replaceEsc v' = b) := by
  cases v with
  | nil => cases h
  | cons x v =>
    rw [replaceEsc_cons] at h
    unfold escOf at h
    split at h
    · next e => subst e; injection h with _ h; exact Or.inr (Or.inl ⟨v, rfl, h⟩)
    split at h
    · next e => subst e; injection h with _ h; exact Or.inr (Or.inr (Or.inl ⟨v, rfl, h⟩))
    split at h
    · next e => subst e; injection h with _ h; exact Or.inr (Or.inr (Or.inr (Or.inl ⟨v, rfl, h⟩)))
    split at h
    · next e => subst e; injection h with _ h; exact Or.inr (Or.inr (Or.inr (Or.inr ⟨v, rfl, h⟩)))
    · injection h with h1 h2; exact Or.inl ⟨v, by rw [h1], h2⟩

/-- hexadecimal digits are emitted as they are -/
theorem replaceEsc_digits : ∀ {ds v b : Str}, replaceEsc v = ds ++ b → '\\' ∉ ds → ∃ v', v = ds ++ v' ∧ replaceEsc v' = b
  | [], v, b, h, _ => ⟨v, rfl, h⟩
  | d :: ds, v, b, h, hd => by
    obtain ⟨v1, rfl, h1⟩ := replaceEsc_plain (b := ds ++ b) h (fun e => hd (by simp [e]))
    obtain ⟨v2, rfl, h2⟩ := replaceEsc_digits h1 (fun hm => hd (by simp [hm]))
    exact ⟨v2, rfl, h2⟩

theorem hexNum_no_bs {ds : Str} {n : Nat} (h : HexNum ds n) : '\\' ∉ ds := by
  induction h with
  | nil => simp
  | @snoc ds n c d _ hc ih =>
    simp only [List.mem_append, List.mem_singleton, not_or]
    refine ⟨ih, ?_⟩
    rintro rfl
    revert hc
    simp [hexVal]

theorem replaceEsc_hex {ds : Str} {n : Nat} (h : HexNum ds n) : replaceEsc ds = ds := by
  induction h with
  | nil => rfl
  | @snoc ds n c d _ hc ih =>
    rw [replaceEsc_append, ih, replaceEsc_cons]
    have h1 : c ≠ '\n' := by rintro rfl; revert hc; simp [hexVal]
    have h2 : c ≠ '\r' := by rintro rfl; revert hc; simp [hexVal]
    have h3 : c ≠ '\t' := by rintro rfl; revert hc; simp [hexVal]
    have h4 : c ≠ '"' := by rintro rfl; revert hc; simp [hexVal]
    simp [escOf, h1, h2, h3, h4, replaceEsc, replaceChar]

theorem unescaped_plain {c : Char} {v w : Str} (h : Unescaped (c :: v) w) (hc : c ≠ '\\') : ∃ w', w = c :: w' ∧ Unescaped v w' := by
  generalize hs : c :: v = s at h
  cases h with
  | plain _ h =>
    injection hs with h1 h2
    subst h1 h2
    exact ⟨_, rfl, h⟩
  | nil => cases hs
  | _ => injection hs with h1 _; exact absurd h1 hc

/-- the emitted text is read as `w` exactly if `w` is what the escapes stand for -/
theorem rustStr_unescaped {v w : Str} : RustStr (replaceEsc v) w ↔ Unescaped v w := by
  constructor
  · intro h
    generalize hb : replaceEsc v = b at h
    induction h generalizing v with
    | nil =>
      cases v with
      | nil => exact .nil
      | cons x v =>
        exfalso
        rw [replaceEsc_cons] at hb
        have : escOf x ≠ [] := by
          unfold escOf
          repeat' split
          all_goals simp
        exact this (List.append_eq_nil_iff.mp hb).1
    | plain h1 h2 h3 _ ih =>
      obtain ⟨v', rfl, h4⟩ := replaceEsc_plain hb h2
      exact .plain h2 (ih h4)
    | n _ ih =>
      rcases replaceEsc_bs hb with ⟨v', rfl, h⟩ | ⟨v', rfl, h⟩ | ⟨v', rfl, h⟩ | ⟨v', rfl, h⟩ | ⟨v', rfl, h⟩
      · obtain ⟨v2, rfl, h2⟩ := replaceEsc_plain h (by decide)
        exact .n (ih h2)
      · injection h with _ h; exact .plain (by decide) (ih h)
      all_goals cases h
    | r _ ih =>
      rcases replaceEsc_bs hb with ⟨v', rfl, h⟩ | ⟨v', rfl, h⟩ | ⟨v', rfl, h⟩ | ⟨v', rfl, h⟩ | ⟨v', rfl, h⟩
      · obtain ⟨v2, rfl, h2⟩ := replaceEsc_plain h (by decide)
        exact .r (ih h2)
      · cases h
      · injection h with _ h; exact .plain (by decide) (ih h)
      all_goals cases h
    | t _ ih =>
      rcases replaceEsc_bs hb with ⟨v', rfl, h⟩ | ⟨v', rfl, h⟩ | ⟨v', rfl, h⟩ | ⟨v', rfl, h⟩ | ⟨v', rfl, h⟩
      · obtain ⟨v2, rfl, h2⟩ := replaceEsc_plain h (by decide)
        exact .t (ih h2)
      · cases h
      · cases h
      · injection h with _ h; exact .plain (by decide) (ih h)
      · cases h
    | dq _ ih =>
      rcases replaceEsc_bs hb with ⟨v', rfl, h⟩ | ⟨v', rfl, h⟩ | ⟨v', rfl, h⟩ | ⟨v', rfl, h⟩ | ⟨v', rfl, h⟩
      · obtain ⟨v2, rfl, h2⟩ := replaceEsc_plain h (by decide)
        exfalso
        rw [replaceEsc_cons] at h
        simp [escOf] at h
      · cases h
      · cases h
      · cases h
      · injection h with _ h; exact .plain (by decide) (ih h)
    | bs hr ih =>
      rcases replaceEsc_bs hb with ⟨v', rfl, h⟩ | ⟨v', rfl, h⟩ | ⟨v', rfl, h⟩ | ⟨v', rfl, h⟩ | ⟨v', rfl, h⟩
      · rcases replaceEsc_bs h with ⟨v2, rfl, h2⟩ | ⟨v2, rfl, h2⟩ | ⟨v2, rfl, h2⟩ | ⟨v2, rfl, h2⟩ | ⟨v2, rfl, h2⟩
        · exact .bs (ih h2)
        · obtain ⟨w', rfl, h3⟩ := unescaped_plain (ih (v := 'n' :: v2) (by rw [replaceEsc_cons]; exact h2)) (by decide)
          exact .lf h3
        · obtain ⟨w', rfl, h3⟩ := unescaped_plain (ih (v := 'r' :: v2) (by rw [replaceEsc_cons]; exact h2)) (by decide)
          exact .cr h3
        · obtain ⟨w', rfl, h3⟩ := unescaped_plain (ih (v := 't' :: v2) (by rw [replaceEsc_cons]; exact h2)) (by decide)
          exact .tab h3
        · exfalso
          rw [← h2] at hr
          cases hr with
          | plain h1 => exact h1 rfl
      all_goals cases h
    | nul _ ih =>
      rcases replaceEsc_bs hb with ⟨v', rfl, h⟩ | ⟨v', rfl, h⟩ | ⟨v', rfl, h⟩ | ⟨v', rfl, h⟩ | ⟨v', rfl, h⟩
      · obtain ⟨v2, rfl, h2⟩ := replaceEsc_plain h (by decide)
        exact .nul (ih h2)
      all_goals cases h
    | sq _ ih =>
      rcases replaceEsc_bs hb with ⟨v', rfl, h⟩ | ⟨v', rfl, h⟩ | ⟨v', rfl, h⟩ | ⟨v', rfl, h⟩ | ⟨v', rfl, h⟩
      · obtain ⟨v2, rfl, h2⟩ := replaceEsc_plain h (by decide)
        exact .sq (ih h2)
      all_goals cases h
    | @hex a l b v0 n c h1 h2 h3 _ ih =>
      rcases replaceEsc_bs hb with ⟨v', rfl, h⟩ | ⟨v', rfl, h⟩ | ⟨v', rfl, h⟩ | ⟨v', rfl, h⟩ | ⟨v', rfl, h⟩
      · obtain ⟨v2, rfl, h4⟩ := replaceEsc_plain h (by decide)
        obtain ⟨v3, rfl, h5⟩ := replaceEsc_digits (ds := [a, l]) h4 (hexNum_no_bs h1)
        exact .hex h1 h2 h3 (ih h5)
      all_goals cases h
    | @uni ds b v0 n c h1 h2 h3 h4 _ ih =>
      rcases replaceEsc_bs hb with ⟨v', rfl, h⟩ | ⟨v', rfl, h⟩ | ⟨v', rfl, h⟩ | ⟨v', rfl, h⟩ | ⟨v', rfl, h⟩
      · obtain ⟨v2, rfl, h5⟩ := replaceEsc_plain h (by decide)
        obtain ⟨v3, rfl, h6⟩ := replaceEsc_plain h5 (by decide)
        obtain ⟨v4, rfl, h7⟩ := replaceEsc_digits h6 (hexNum_no_bs h1)
        obtain ⟨v5, rfl, h8⟩ := replaceEsc_plain h7 (by decide)
        exact .uni h1 h2 h3 h4 (ih h8)
      all_goals cases h
    | @cont w' b v0 _ _ _ _ =>
      exfalso
      exact (replaceEsc_raw v).1 (by rw [hb]; simp)
  · intro h
    induction h with
    | nil => exact .nil
    | @plain c v w hc _ ih =>
      rw [replaceEsc_cons]
      unfold escOf
      split
      · next e => subst e; exact .n ih
      split
      · next e => subst e; exact .r ih
      split
      · next e => subst e; exact .t ih
      split
      · next e => subst e; exact .dq ih
      · next h1 h2 h3 h4 => exact .plain h4 hc h2 ih
    | bs _ ih => rw [replaceEsc_cons, replaceEsc_cons]; exact .bs ih
    | n _ ih => rw [replaceEsc_cons, replaceEsc_cons]; exact .n ih
    | r _ ih => rw [replaceEsc_cons, replaceEsc_cons]; exact .r ih
    | t _ ih => rw [replaceEsc_cons, replaceEsc_cons]; exact .t ih
    | nul _ ih => rw [replaceEsc_cons, replaceEsc_cons]; exact .nul ih
    | sq _ ih => rw [replaceEsc_cons, replaceEsc_cons]; exact .sq ih
    | lf _ ih => rw [replaceEsc_cons, replaceEsc_cons]; exact .bs (.plain (by decide) (by decide) (by decide) ih)
    | cr _ ih => rw [replaceEsc_cons, replaceEsc_cons]; exact .bs (.plain (by decide) (by decide) (by decide) ih)
    | tab _ ih => rw [replaceEsc_cons, replaceEsc_cons]; exact .bs (.plain (by decide) (by decide) (by decide) ih)
    | @hex a l v w n c h1 h2 h3 _ ih =>
      rw [replaceEsc_cons, replaceEsc_cons, show a :: l :: v = [a, l] ++ v from rfl, replaceEsc_append, replaceEsc_hex h1]
      exact .hex h1 h2 h3 ih
    | @uni ds v w n c h1 h2 h3 h4 _ ih =>
      rw [List.cons_append, List.cons_append, List.cons_append, replaceEsc_cons, replaceEsc_cons, replaceEsc_cons, replaceEsc_append,
        replaceEsc_hex h1, replaceEsc_cons]
      exact .uni h1 h2 h3 h4 ih

/-- **C92**: what is generated for a literal is an expression exactly if the backslashes in it start escapes of Rust, and
then it is the literal in which the escapes are resolved. -/
theorem C92_literal (v : Str) (e : Expr) :
    RustExpr (expr2code (.simple (.literal v))) e ↔ ∃ w, Unescaped v w ∧ e = .simple (.literal w) := by
  constructor
  · intro he
    rw [expr2code, atom2code] at he
    generalize hs : c!"lit!(\"" ++ replaceEsc v ++ c!"\")" = s at he
    cases he with
    | lit h1 =>
      simp only [List.cons_append, List.nil_append, List.cons.injEq, true_and] at hs
      have h2 := List.append_cancel_right hs
      subst h2
      exact ⟨_, rustStr_unescaped.1 h1, rfl⟩
    | _ => simp at hs
  · rintro ⟨w, h, rfl⟩
    rw [expr2code, atom2code]
    exact .lit (rustStr_unescaped.2 h)

/-- **C92** for `error(...)`. -/
theorem C92_error (v : Str) (e : Expr) :
    RustExpr (expr2code (.simple (.error v))) e ↔ ∃ w, Unescaped v w ∧ e = .simple (.error w) := by
  constructor
  · intro he
    rw [expr2code, atom2code] at he
    generalize hs : c!"error!(\"" ++ replaceEsc v ++ c!"\")" = s at he
    cases he with
    | error h1 =>
      simp only [List.cons_append, List.nil_append, List.cons.injEq, true_and] at hs
      have h2 := List.append_cancel_right hs
      subst h2
      exact ⟨_, rustStr_unescaped.1 h1, rfl⟩
    | _ => simp at hs
  · rintro ⟨w, h, rfl⟩
    rw [expr2code, atom2code]
    exact .error (rustStr_unescaped.2 h)

mutual
theorem codeOf_sound : ∀ {e e'}, CodeOf e e' → RustExpr (expr2code e) e'
  | _, _, .literal h => (C92_literal _ _).2 ⟨_, h, rfl⟩
  | _, _, .error h => (C92_error _ _).2 ⟨_, h, rfl⟩
  | _, _, .dot => expr2code_sound _ .dot
  | _, _, .cls h1 h2 h3 => expr2code_sound _ (.cls h1 h2 h3)
  | _, _, .ref h => expr2code_sound _ (.ref h)
  | _, _, .and h => by rw [expr2code]; exact .and (codeOfs_sound h)
  | _, _, .or h => by rw [expr2code]; exact .or (codeOfs_sound h)
  | _, _, .not h => by rw [expr2code]; exact .not (codeOf_sound h)
  | _, _, .rep (mn := mn) (mx := none) h => by
    have := RustExpr.rep (w := c!" ") (codeOf_sound h) (by unfold Blank; decide) (natCode_dec mn)
    rw [expr2code]
    simpa using this
  | _, _, .rep (mn := mn) (mx := some mx) h => by
    have := RustExpr.repMax (w := c!" ") (w' := c!" ") (codeOf_sound h) (by unfold Blank; decide)
        (natCode_dec mn) (by unfold Blank; decide) (natCode_dec mx)
    rw [expr2code]
    simpa using this
theorem codeOfs_sound : ∀ {es es'}, CodeOfs es es' → RustArgs (mexpr2code [] es) es'
  | _, _, .nil => .nil
  | _, _, .cons h .nil => .one (codeOf_sound h)
  | _, _, .cons h (.cons h1 h2) => by
    have h3 := codeOfs_sound (.cons h1 h2)
    have h4 := RustArgs.cons (w := c!" ") (codeOf_sound h) (by unfold Blank; decide) h3 (by simp)
    rw [mexpr2code_cons] at h4 ⊢
    simpa using h4
end

/-- **C92**: if every literal and message by itself resolves, then the code generated for an expression is read as the
expression with the escapes resolved, and as nothing else. -/
theorem C92_expression {e e' : Expr} (h : CodeOf e e') (e'' : Expr) : RustExpr (expr2code e) e'' ↔ e'' = e' := by
  constructor
  · intro h'
    exact (rustExpr_det h' (codeOf_sound h) (r := []) (r' := []) rfl).2.1
  · rintro rfl
    exact codeOf_sound h

/-- **C92** for whole sets of rules, in the order in which the map is visited. -/
theorem C92_rules {l l' : List (Str × Expr)} (h : CodeOfRules l l') (l'' : List (Str × Expr)) :
    RustRules (rustFromEntries l) l'' ↔ l'' = l' := by
  have hb : Blank c!"\n       " := by unfold Blank; decide
  have entry : ∀ {n e e'}, RawStr n → CodeOf e e' → ∀ {w : Str}, Blank w → RustEntry (w ++ rule2code n e) (n, e') := by
    intro n e e' hn he w hw
    exact ⟨w, c!" ", c!" ", _, hw, by unfold Blank; decide, by unfold Blank; decide, hn, codeOf_sound he, by simp [rule2code]⟩
  have key : ∀ {l l'}, CodeOfRules l l' → ∀ {n e e'} (w : Str), Blank w → RawStr n → CodeOf e e' →
      RustRules (w ++ rule2code n e ++ ((l.map fun ne => rule2code ne.1 ne.2).map (c!"\n       , " ++ ·)).flatten) ((n, e') :: l') := by
    intro l l' h
    induction h with
    | nil =>
      intro n e e' w hw hn he
      have := RustRules.one (w := []) (entry hn he hw) (by simp [Blank])
      simpa using this
    | cons hn' he' _ ih =>
      intro n e e' w hw hn he
      have h1 := ih c!" " (by unfold Blank; decide) hn' he'
      have h2 := RustRules.cons (entry hn he hw) hb h1 (by simp)
      simpa using h2
  have h1 : RustRules (rustFromEntries l) l' := by
    rw [rustFromEntries_layout]
    cases h with
    | nil => exact .nil (w := []) (by simp [Blank])
    | cons hn he h => exact key h c!"\n         " (by unfold Blank; decide) hn he
  exact ⟨fun h' => rustRules_det h' h1, by rintro rfl; exact h1⟩

/-- **C92**: two sets of rules with the same code: `rust_from_rules` forgets which of the two it was given. The first
accepts a line feed, the second a backslash and an `n`. -/
theorem C92_same_code : ∃ R R' : SetOfRules, (∀ code, RustFromRules R code ↔ RustFromRules R' code) ∧
    rulesFromPeg c!"main = \"\\n\"\n" = .ok R ∧ rulesFromPeg c!"main = \"\\\\n\"\n" = .ok R' ∧
    ∀ s, Ascii s → ((∃ t, parse s R = .ok t) ↔ s = c!"\n") ∧ ((∃ t, parse s R' = .ok t) ↔ s = c!"\\n") := by
  refine ⟨⟨[(c!"main", .simple (.literal c!"\n"))]⟩, ⟨[(c!"main", .simple (.literal c!"\\n"))]⟩, fun code => ?_,
    C34_escaped_literal (v := c!"\n") (by decide), C34_escaped_literal (v := c!"\\n") (by decide),
    fun s ha => ⟨parse_literal rfl ha, parse_literal rfl ha⟩⟩
  constructor
  · rintro ⟨order, hp, rfl⟩
    have := List.perm_singleton.mp hp
    subst this
    exact ⟨_, .refl _, by decide⟩
  · rintro ⟨order, hp, rfl⟩
    have := List.perm_singleton.mp hp
    subst this
    exact ⟨_, .refl _, by decide⟩

/-! #### Literals that do not resolve -/

/-- an odd number of backslashes at the end: the quote after it is not the end of the literal -/
theorem unescaped_odd : ∀ {k : Nat}, ¬ ∃ w, Unescaped (List.replicate (2 * k + 1) '\\') w
  | 0, ⟨_, h⟩ => by
    generalize hs : List.replicate (2 * 0 + 1) '\\' = s at h
    cases h with
    | plain h1 => cases hs; exact h1 rfl
    | _ => cases hs
  | k + 1, ⟨_, h⟩ => by
    have e : List.replicate (2 * (k + 1) + 1) '\\' = '\\' :: '\\' :: List.replicate (2 * k + 1) '\\' := rfl
    rw [e] at h
    generalize hs : '\\' :: '\\' :: List.replicate (2 * k + 1) '\\' = s at h
    cases h with
    | plain h1 => injection hs with h2 _; exact h1 h2.symm
    | bs h =>
      simp only [List.cons.injEq, true_and] at hs
      subst hs
      exact unescaped_odd ⟨_, h⟩
    | _ => simp at hs

/-- the text `main = "\\\"), lit!(" [), ematch!(chlist r#"xa-b]` -/
def injectText : Str := c!"main = \"\\\\\\\"), lit!(\" [), ematch!(chlist r#\"xa-b]\n"

def injectRules : SetOfRules :=
  ⟨[(c!"main", .and [.simple (.literal c!"\\\"), lit!("), .simple (.mtch c!"), ematch!(chlist r#\"x" [('a', 'b')])])]⟩

/-- **C92**, refuted without the condition on the literals: the code generated for these rules is read by Rust, and builds a
sequence of three parts instead of two. A literal that ends in a backslash, or has one before a quote, lets the text of
literals and classes become code. -/
theorem C92_injection : rulesFromPeg injectText = .ok injectRules ∧
    ∀ code, RustFromRules injectRules code → ∀ l, RustRules code l ↔ l = [(c!"main", .and [.simple (.literal c!"\\"),
      .simple (.literal c!"), ematch!(chlist r#"), .simple (.mtch c!"x" [('a', 'b')])])] := by
  refine ⟨rulesFromPeg_of 400 (by decide +kernel), ?_⟩
  rintro code ⟨order, hp, rfl⟩ l
  have := List.perm_singleton.mp hp
  subst this
  have hbl : Blank c!" " := by unfold Blank; decide
  have hnil : Blank [] := by unfold Blank; decide
  have hx : RustExpr c!"and!(lit!(\"\\\\\"), lit!(\"), ematch!(chlist r#\"), ematch!(chlist r#\"x\"#  , from 'a', to 'b' ))"
      (.and [.simple (.literal c!"\\"), .simple (.literal c!"), ematch!(chlist r#"), .simple (.mtch c!"x" [('a', 'b')])]) := by
    have p1 : RustExpr c!"lit!(\"\\\\\")" (.simple (.literal c!"\\")) := .lit (.bs .nil)
    have p2 : RustExpr c!"lit!(\"), ematch!(chlist r#\")" (.simple (.literal c!"), ematch!(chlist r#")) :=
      expr2code_sound (.simple (.literal c!"), ematch!(chlist r#")) (.literal (by decide))
    have p3 : RustExpr c!"ematch!(chlist r#\"x\"#  , from 'a', to 'b' )" (.simple (.mtch c!"x" [('a', 'b')])) :=
      expr2code_sound (.simple (.mtch c!"x" [('a', 'b')])) (.cls ⟨by decide, by decide⟩ (by simp) (by simp [CharLit]))
    exact .and (.cons (w := c!" ") p1 hbl (.cons (w := c!" ") p2 hbl (.one p3) (by simp)) (by simp))
  have h1 : RustRules (rustFromEntries injectRules.entries) [(c!"main", .and [.simple (.literal c!"\\"),
      .simple (.literal c!"), ematch!(chlist r#"), .simple (.mtch c!"x" [('a', 'b')])])] := by
    have := RustRules.one (w := []) (s := c!"\n         r#\"main\"# => and!(lit!(\"\\\\\"), lit!(\"), ematch!(chlist r#\"), ematch!(chlist r#\"x\"#  , from 'a', to 'b' ))")
      (ne := (c!"main", _)) ⟨c!"\n         ", c!" ", c!" ", _, by unfold Blank; decide, hbl, hbl, ⟨by decide, by decide⟩, hx, rfl⟩ hnil
    exact this
  exact ⟨fun h' => rustRules_det h' h1, by rintro rfl; exact h1⟩

/-- `\n` in a literal becomes a line feed, `\` and a line feed become `\` and `n` -/
example : Unescaped c!"a\\n" c!"a\n" ∧ Unescaped c!"a\\\n" c!"a\\n" := ⟨.plain (by decide) (.n .nil), .plain (by decide) (.lf .nil)⟩

example : RustExpr c!"not!(lit!(\"\\x41\\u{e9}\"))" (.not (.simple (.literal c!"Aé"))) := by
  have h1 : HexNum ['4', '1'] 65 := .snoc (ds := ['4']) (c := '1') (d := 1) (.snoc (ds := []) (c := '4') (d := 4) .nil (by decide)) (by decide)
  have h2 : HexNum ['e', '9'] 233 := .snoc (ds := ['e']) (c := '9') (d := 9) (.snoc (ds := []) (c := 'e') (d := 14) .nil (by decide)) (by decide)
  exact (C92_expression (e := .not (.simple (.literal c!"\\x41\\u{e9}")))
    (.not (.literal (.hex h1 (by decide) (by decide) (.uni h2 (by decide) (by decide) (by decide) .nil)))) _).2 rfl

/-- one backslash -/
example : ¬ ∃ e, RustExpr (expr2code (.simple (.literal c!"\\"))) e := by
  rintro ⟨e, h⟩
  obtain ⟨w, h, _⟩ := (C92_literal _ _).1 h
  exact unescaped_odd (k := 0) ⟨w, h⟩

end DP
