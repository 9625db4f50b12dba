/-
C40, C41, C44: the code emitted by `rust_from_rules`.
-/
import Verif.Proofs.RustCode
import Verif.Model.Gcode
import Verif.Props.Rules
import Verif.Props.PegFront

namespace DP
open Spec Gcode

/-! ### C40: layout -/

/-- the separators of the generated code -/
def layOut : List Str → Str
  | [] => []
  | x :: xs => c!"\n         " ++ x ++ (xs.map (c!"\n       , " ++ ·)).flatten

theorem rustFromEntries_layout (es : List (Str × Expr)) :
    rustFromEntries es = layOut (es.map fun ne => rule2code ne.1 ne.2) := by
  have key : ∀ (es : List (Str × Expr)) (acc : Str), acc ≠ [] →
      es.foldl (fun acc ne => addRule acc (rule2code ne.1 ne.2)) acc =
        acc ++ (((es.map fun ne => rule2code ne.1 ne.2)).map (c!"\n       , " ++ ·)).flatten := by
    intro es
    induction es with
    | nil => intro acc _; simp
    | cons x es ih =>
      intro acc ha
      rw [List.foldl_cons, ih]
      · simp [addRule, ha]
      · simp [addRule]
  unfold rustFromEntries
  cases es with
  | nil => rfl
  | cons x es =>
    rw [List.foldl_cons, key _ _ (by simp [addRule])]
    simp [addRule, layOut]

/-- **C40**: the code is, for some order of the rules, one `r#"name"# => code` entry per rule, each on its own
line, separated by commas, with no leading or trailing comma. -/
theorem C40_layout {R : SetOfRules} {code : Str} :
    RustFromRules R code ↔ ∃ order : List (Str × Expr), order.Perm R.entries ∧
      code = layOut (order.map fun ne => c!"r#\"" ++ ne.1 ++ c!"\"# => " ++ expr2code ne.2) := by
  unfold RustFromRules
  simp only [rustFromEntries_layout, rule2code]

/-- **C40**: an empty set of rules gives no code at all. -/
theorem C40_empty {code : Str} : RustFromRules ⟨[]⟩ code ↔ code = [] := by
  rw [C40_layout]
  constructor
  · rintro ⟨o, h1, h2⟩
    rw [List.perm_nil.mp h1] at h2
    exact h2
  · rintro rfl
    exact ⟨[], .nil, rfl⟩

/-- two rules: both orders, nothing else -/
example : RustFromRules ⟨[(c!"main", .ruleName c!"b"), (c!"b", .simple .dot)]⟩
    c!"\n         r#\"b\"# => dot!()\n       , r#\"main\"# => ref_rule!(r#\"b\"#)" :=
  C40_layout.2 ⟨[(c!"b", .simple .dot), (c!"main", .ruleName c!"b")], .swap _ _ _, rfl⟩

/-! ### C41: string literals -/

/-- what `replace_esc` does to one character -/
def escOf (c : Char) : Str :=
  if c = '\n' then c!"\\n" else if c = '\r' then c!"\\r" else if c = '\t' then c!"\\t"
  else if c = '"' then c!"\\\"" else [c]

theorem replaceChar_append (c : Char) (b : Str) : ∀ x y, replaceChar c b (x ++ y) = replaceChar c b x ++ replaceChar c b y
  | [], y => rfl
  | a :: x, y => by
    rw [List.cons_append, replaceChar, replaceChar, replaceChar_append c b x y]
    split <;> simp

theorem replaceEsc_cons (c : Char) (v : Str) : replaceEsc (c :: v) = escOf c ++ replaceEsc v := by
  unfold replaceEsc
  rw [show c :: v = [c] ++ v from rfl]
  simp only [replaceChar_append]
  congr 1
  by_cases h1 : c = '\n'
  · subst h1; decide
  by_cases h2 : c = '\r'
  · subst h2; decide
  by_cases h3 : c = '\t'
  · subst h3; decide
  by_cases h4 : c = '"'
  · subst h4; decide
  simp [replaceChar, escOf, h1, h2, h3, h4]

theorem replaceEsc_sound : ∀ v : Str, '\\' ∉ v → RustStr (replaceEsc v) v
  | [], _ => .nil
  | c :: v, h => by
    have ih := replaceEsc_sound v (fun hm => h (List.mem_cons_of_mem _ hm))
    have hc : c ≠ '\\' := fun e => h (e ▸ List.mem_cons_self)
    rw [replaceEsc_cons]
    unfold escOf
    split
    · next e => subst e; exact .n ih
    split
    · next e => subst e; exact .r ih
    split
    · next e => subst e; exact .t ih
    split
    · next e => subst e; exact .dq ih
    · next h1 h2 h3 h4 => exact .plain h4 hc h2 ih

/-- characters that `replace_esc` makes one longer -/
def isEsc (c : Char) : Bool := c == '\n' || c == '\r' || c == '\t' || c == '"'

theorem replaceEsc_length : ∀ v : Str, (replaceEsc v).length = v.length + v.countP isEsc
  | [] => rfl
  | c :: v => by
    rw [replaceEsc_cons, List.length_append, replaceEsc_length v, List.length_cons, List.countP_cons]
    unfold escOf isEsc
    split
    · next e => subst e; simp; omega
    split
    · next e => subst e; simp; omega
    split
    · next e => subst e; simp; omega
    split
    · next e => subst e; simp; omega
    · next h1 h2 h3 h4 => simp [h1, h2, h3, h4]; omega

theorem replaceEsc_raw : ∀ v : Str, '\n' ∉ replaceEsc v ∧ '\t' ∉ replaceEsc v
  | [] => by simp [replaceEsc, replaceChar]
  | c :: v => by
    have ih := replaceEsc_raw v
    rw [replaceEsc_cons]
    simp only [List.mem_append, not_or]
    refine ⟨⟨?_, ih.1⟩, ?_, ih.2⟩ <;>
    · unfold escOf
      split
      · simp
      split
      · simp
      split
      · simp
      split
      · simp
      · next h1 h2 h3 h4 => simp [Ne.symm h1, Ne.symm h3]

/-- a string literal is long enough to escape what needs to be escaped -/
theorem rustStr_length {b v : Str} (h : RustStr b v) : '\n' ∉ b → '\t' ∉ b →
    v.length + v.countP (fun c => isEsc c || c == '\\') ≤ b.length := by
  have one : ∀ (c : Char), (if (isEsc c || c == '\\') = true then 1 else 0) ≤ 1 := by
    intro c; split <;> omega
  induction h with
  | nil => intros; simp
  | @plain c b v h1 h2 h3 _ ih =>
    intro hn ht
    simp only [List.mem_cons, not_or] at hn ht
    have := ih hn.2 ht.2
    rw [List.countP_cons]
    simp [isEsc, h1, h2, h3, Ne.symm hn.1, Ne.symm ht.1] at *
    omega
  | @cont w b v _ _ _ _ => intro hn; simp at hn
  | @uni ds b v n c _ _ _ _ _ ih =>
    intro hn ht
    simp only [List.mem_cons, List.mem_append, not_or, List.cons_append] at hn ht
    have := ih hn.2.2.2.2.2 ht.2.2.2.2.2
    rw [List.countP_cons]
    have := one c
    simp only [List.length_cons, List.length_append, List.cons_append] at *
    omega
  | @hex a l b v n c _ _ _ _ ih =>
    intro hn ht
    simp only [List.mem_cons, not_or] at hn ht
    have := ih hn.2.2.2.2 ht.2.2.2.2
    rw [List.countP_cons]
    have := one c
    simp only [List.length_cons] at *
    omega
  | @n b v _ ih | @r b v _ ih | @t b v _ ih | @bs b v _ ih | @nul b v _ ih | @sq b v _ ih | @dq b v _ ih =>
    intro hn ht
    simp only [List.mem_cons, not_or] at hn ht
    have := ih hn.2.2 ht.2.2
    rw [List.countP_cons]
    simp only [List.length_cons] at *
    have := fun c => one c
    split <;> omega

theorem rustStr_replaceEsc (v : Str) : RustStr (replaceEsc v) v ↔ '\\' ∉ v := by
  constructor
  · intro h hm
    have h1 := rustStr_length h (replaceEsc_raw v).1 (replaceEsc_raw v).2
    rw [replaceEsc_length] at h1
    have h2 : ∀ v : Str, '\\' ∈ v → v.countP isEsc < v.countP (fun c => isEsc c || c == '\\') := by
      intro v
      induction v with
      | nil => intro h; cases h
      | cons c v ih =>
        intro hm
        have h3 : ∀ v : Str, v.countP isEsc ≤ v.countP (fun c => isEsc c || c == '\\') := by
          intro v
          exact List.countP_mono_left (by intro x _ hx; simp [hx])
        rw [List.countP_cons, List.countP_cons]
        by_cases hc : c = '\\'
        · subst hc
          have := h3 v
          simp [isEsc] at *
          omega
        · have hm' : '\\' ∈ v := by
            rcases List.mem_cons.mp hm with h | h
            · exact absurd h.symm hc
            · exact h
          have := ih hm'
          simp only [hc, beq_iff_eq, Bool.or_eq_true, or_false]
          omega
    have := h2 v hm
    omega
  · exact replaceEsc_sound v

/-- **C41**: what is emitted for a literal is the macro `lit!` applied to a string literal, which denotes the
text of the literal exactly when it has no backslash. -/
theorem C41_literal (v : Str) : ∃ b, expr2code (.simple (.literal v)) = c!"lit!(\"" ++ b ++ c!"\")" ∧
    (RustStr b v ↔ '\\' ∉ v) :=
  ⟨replaceEsc v, rfl, rustStr_replaceEsc v⟩

/-- **C41** for `error(...)`. -/
theorem C41_error (v : Str) : ∃ b, expr2code (.simple (.error v)) = c!"error!(\"" ++ b ++ c!"\")" ∧
    (RustStr b v ↔ '\\' ∉ v) :=
  ⟨replaceEsc v, rfl, rustStr_replaceEsc v⟩

/-- **C41**, refuted with backslashes: the code for the two characters `\n` denotes a line feed. -/
theorem C41_backslash_false : expr2code (.simple (.literal c!"\\n")) = c!"lit!(\"\\n\")" ∧ RustStr c!"\\n" c!"\n" :=
  ⟨by decide, .n .nil⟩

/-! ### C44: the generated code builds the rules it was generated from -/

theorem bounds2code_ranges : ∀ (rs : List (Char × Char)), rs ≠ [] → (∀ r ∈ rs, CharLit r.1 ∧ CharLit r.2) →
    ∃ s, bounds2code [] rs = ',' :: s ∧ RustRanges s rs
  | [], h, _ => absurd rfl h
  | [(a, b)], _, h => by
    have ⟨ha, hb⟩ := h (a, b) (by simp)
    refine ⟨_, rfl, .one ?_⟩
    exact RustRange.mk (w1 := c!" ") (w2 := []) (w3 := c!" ") (w4 := []) (w5 := c!" ")
      (by decide) (by decide) (by decide) (by decide) (by decide) ha hb
  | (a, b) :: p :: rs, _, h => by
    have ⟨ha, hb⟩ := h (a, b) (by simp)
    obtain ⟨s, h1, h2⟩ := bounds2code_ranges (p :: rs) (by simp) (fun r hr => h r (List.mem_cons_of_mem _ hr))
    refine ⟨c!" from '" ++ [a] ++ c!"', to '" ++ [b] ++ c!"' " ++ ',' :: s, ?_, ?_⟩
    · rw [bounds2code, h1]; rfl
    · have h3 := RustRange.mk (w1 := c!" ") (w2 := []) (w3 := c!" ") (w4 := []) (w5 := c!" ")
        (by decide) (by decide) (by decide) (by decide) (by decide) ha hb
      have h4 := RustRanges.cons h3 h2
      simpa using h4

theorem natCode_dec (n : Nat) : DecLit (natCode n) n := by
  refine ⟨Nat.toDigits_ne_nil, ?_, ?_⟩
  · intro c hc
    have := Nat.isDigit_of_mem_toDigits (by omega) (by omega) hc
    simp only [Char.isDigit, Bool.and_eq_true, decide_eq_true_eq] at this
    exact this
  · have := Nat.ofDigitChars_toDigits (b := 10) (n := n) (by omega) (by omega)
    exact this

theorem expr2code_ne_nil (e : Expr) : expr2code e ≠ [] := by
  cases e with
  | simple a => cases a <;> simp [expr2code, atom2code, matchRules2code]
  | _ => simp [expr2code]

theorem mexpr2code_acc : ∀ (es : List Expr) (acc : Str), acc ≠ [] →
    mexpr2code acc es = acc ++ (es.map (c!", " ++ expr2code ·)).flatten
  | [], acc, _ => by simp [mexpr2code]
  | e :: es, acc, h => by
    rw [mexpr2code, mexpr2code_acc es _ (by simp [h]), if_neg (by simp [h])]
    simp

theorem mexpr2code_cons (e : Expr) (es : List Expr) :
    mexpr2code [] (e :: es) = expr2code e ++ (es.map (c!", " ++ expr2code ·)).flatten := by
  rw [mexpr2code, mexpr2code_acc es _ (by simp [expr2code_ne_nil])]
  simp

theorem rustArgs_of : ∀ es : List Expr, (∀ e ∈ es, RustExpr (expr2code e) e) → RustArgs (mexpr2code [] es) es
  | [], _ => by rw [mexpr2code]; exact .nil
  | [e], h => by
    rw [mexpr2code_cons]
    simpa using RustArgs.one (h e (by simp))
  | e :: e' :: es, h => by
    have h1 := rustArgs_of (e' :: es) (fun x hx => h x (List.mem_cons_of_mem _ hx))
    have h2 := RustArgs.cons (w := c!" ") (h e (by simp)) (by unfold Blank; decide) h1 (by simp)
    rw [mexpr2code_cons] at h2 ⊢
    simpa using h2

mutual
theorem expr2code_sound : ∀ e, Emittable e → RustExpr (expr2code e) e
  | .simple a, h => by
    rw [expr2code]
    cases h with
    | literal h => exact .lit (replaceEsc_sound _ h)
    | error h => exact .error (replaceEsc_sound _ h)
    | dot => exact .dot
    | @cls cs rs h1 h2 h3 =>
      obtain ⟨s, h4, h5⟩ := bounds2code_ranges rs h2 h3
      rw [atom2code, matchRules2code, h4]
      have := RustExpr.ematch (w := c!"  ") h1 (by unfold Blank; decide) h5
      simpa using this
  | .and es, h => by
    rw [expr2code]
    cases h with
    | and h => exact .and (rustArgs_of es (expr2code_soundL es h))
  | .or es, h => by
    rw [expr2code]
    cases h with
    | or h => exact .or (rustArgs_of es (expr2code_soundL es h))
  | .not e, h => by
    rw [expr2code]
    cases h with
    | not h => exact .not (expr2code_sound e h)
  | .rep e mn none, h => by
    rw [expr2code]
    cases h with
    | rep h =>
      have := RustExpr.rep (w := c!" ") (expr2code_sound e h) (by unfold Blank; decide) (natCode_dec mn)
      simpa using this
  | .rep e mn (some mx), h => by
    rw [expr2code]
    cases h with
    | rep h =>
      have := RustExpr.repMax (w := c!" ") (w' := c!" ") (expr2code_sound e h) (by unfold Blank; decide)
        (natCode_dec mn) (by unfold Blank; decide) (natCode_dec mx)
      simpa using this
  | .ruleName n, h => by
    rw [expr2code]
    cases h with
    | ref h => exact .ref h
theorem expr2code_soundL : ∀ es : List Expr, (∀ e ∈ es, Emittable e) → ∀ e ∈ es, RustExpr (expr2code e) e
  | [], _, e, he => by cases he
  | x :: es, h, e, he => by
    rcases List.mem_cons.mp he with hx | he
    · exact hx ▸ expr2code_sound x (h x List.mem_cons_self)
    · exact expr2code_soundL es (fun y hy => h y (List.mem_cons_of_mem _ hy)) e he
end

/-- **C44**: the code generated for an expression is a Rust expression that evaluates to it, and to
nothing else. -/
theorem C44_expression {e : Expr} (h : Emittable e) (e' : Expr) : RustExpr (expr2code e) e' ↔ e' = e := by
  constructor
  · intro h'
    exact (rustExpr_det h' (expr2code_sound e h) (r := []) (r' := []) rfl).2.1
  · rintro rfl
    exact expr2code_sound _ h

theorem rule2code_entry {ne : Str × Expr} (h : RawStr ne.1 ∧ Emittable ne.2) {w : Str} (hw : Blank w) :
    RustEntry (w ++ rule2code ne.1 ne.2) ne :=
  ⟨w, c!" ", c!" ", expr2code ne.2, hw, by unfold Blank; decide, by unfold Blank; decide, h.1,
    expr2code_sound _ h.2, by simp [rule2code]⟩

theorem layOut_sound : ∀ (l : List (Str × Expr)), (∀ ne ∈ l, RawStr ne.1 ∧ Emittable ne.2) →
    RustRules (layOut (l.map fun ne => rule2code ne.1 ne.2)) l := by
  have hb : Blank c!"\n       " := by unfold Blank; decide
  have key : ∀ (l : List (Str × Expr)) (x : Str × Expr) (w : Str), Blank w →
      (∀ ne ∈ x :: l, RawStr ne.1 ∧ Emittable ne.2) →
      RustRules (w ++ rule2code x.1 x.2 ++ ((l.map fun ne => rule2code ne.1 ne.2).map (c!"\n       , " ++ ·)).flatten)
        (x :: l) := by
    intro l
    induction l with
    | nil =>
      intro x w hw h
      have := RustRules.one (w := []) (rule2code_entry (h x (by simp)) hw) (by simp [Blank])
      simpa using this
    | cons y l ih =>
      intro x w hw h
      have h1 := ih y c!" " (by unfold Blank; decide) (fun ne hne => h ne (List.mem_cons_of_mem _ hne))
      have h2 := RustRules.cons (rule2code_entry (h x (by simp)) hw) hb h1 (by simp)
      simpa using h2
  intro l h
  cases l with
  | nil => exact .nil (w := []) (by simp [Blank])
  | cons x l => exact key l x c!"\n         " (by unfold Blank; decide) h

theorem rustExpr_noblank {s e r} (h : RustExpr s e) : ∀ c ∈ (s ++ r).head?, c ≠ ' ' ∧ c ≠ '\n' :=
  rustArgs_blank (.one h) (by simp)

theorem rustEntry_det {s s' : Str} {ne ne' r r'} (h : RustEntry s ne) (h' : RustEntry s' ne') (he : s ++ r = s' ++ r') :
    s = s' ∧ ne = ne' ∧ r = r' := by
  obtain ⟨w1, w2, w3, code, a1, a2, a3, a4, a5, rfl⟩ := h
  obtain ⟨v1, v2, v3, code', b1, b2, b3, b4, b5, rfl⟩ := h'
  simp only [List.append_assoc] at he
  replace he := blank_det a1 b1 (by simp) (by simp) he
  obtain ⟨rfl, he⟩ := he
  simp only [List.cons_append, List.nil_append, List.cons.injEq, true_and] at he
  replace he := rawStr_det a4.1 b4.1 he
  obtain ⟨hn, he⟩ := he
  replace he := blank_det a2 b2 (by simp) (by simp) he
  obtain ⟨rfl, he⟩ := he
  simp only [List.cons_append, List.nil_append, List.cons.injEq, true_and] at he
  replace he := blank_det a3 b3 (rustExpr_noblank a5) (rustExpr_noblank b5) he
  obtain ⟨rfl, he⟩ := he
  obtain ⟨rfl, h2, h3⟩ := rustExpr_det a5 b5 he
  refine ⟨by rw [hn], ?_, h3⟩
  exact Prod.ext hn h2

theorem rustEntry_nonblank {s : Str} {ne r w} (h : RustEntry s ne) (hw : Blank w) : w ≠ s ++ r := by
  obtain ⟨w1, w2, w3, code, a1, a2, a3, a4, a5, rfl⟩ := h
  rintro rfl
  have := hw 'r' (by simp)
  revert this
  decide

theorem rustRules_det {s : Str} {l} (h : RustRules s l) : ∀ {l'}, RustRules s l' → l = l' := by
  induction h with
  | @nil w hw =>
    intro l' h'
    generalize hs : w = s at h'
    cases h' with
    | nil => rfl
    | one h1 => exact absurd hs (rustEntry_nonblank h1 hw)
    | cons h1 =>
      simp only [List.append_assoc] at hs
      exact absurd hs (rustEntry_nonblank h1 hw)
  | @one s w ne h1 hw =>
    intro l' h'
    generalize hs : s ++ w = s at h'
    cases h' with
    | nil hw' => exact absurd hs.symm (rustEntry_nonblank h1 hw')
    | one h2 => rw [(rustEntry_det h1 h2 hs).2.1]
    | cons h2 hw2 =>
      simp only [List.append_assoc] at hs
      have h3 := (rustEntry_det h1 h2 hs).2.2
      subst h3
      exact absurd (hw ',' (by simp)) (by decide)
  | @cons s w ne t l h1 hw _ hn ih =>
    intro l' h'
    generalize hs : s ++ w ++ c!"," ++ t = s at h'
    simp only [List.append_assoc] at hs
    cases h' with
    | nil hw' => exact absurd hs.symm (rustEntry_nonblank h1 hw')
    | one h2 hw2 =>
      have h3 := (rustEntry_det h1 h2 hs).2.2
      rw [← h3] at hw2
      exact absurd (hw2 ',' (by simp)) (by decide)
    | cons h2 hw2 h3 _ =>
      simp only [List.append_assoc] at hs
      obtain ⟨_, rfl, h4⟩ := rustEntry_det h1 h2 hs
      replace h4 := blank_det hw hw2 (by simp) (by simp) h4
      obtain ⟨rfl, h4⟩ := h4
      simp only [List.cons_append, List.nil_append, List.cons.injEq, true_and] at h4
      subst h4
      rw [ih h3]

/-- **C44**: given to `rules!`, the generated code is read as a list of rules in one way only, and the set of
rules it builds maps every name to the expression it had. -/
theorem C44_rules {R : SetOfRules} {code : Str} (hu : UniqueKeys R)
    (he : ∀ ne ∈ R.entries, RawStr ne.1 ∧ Emittable ne.2) (h : RustFromRules R code) :
    ∃ l, (∀ l', RustRules code l' ↔ l' = l) ∧ ∀ n, grammar (.ofList l) n = grammar R n := by
  obtain ⟨l, hp, rfl⟩ := h
  have h1 : RustRules (rustFromEntries l) l := by
    rw [rustFromEntries_layout]
    exact layOut_sound l (fun ne hne => he ne (hp.mem_iff.mp hne))
  refine ⟨l, fun l' => ⟨fun h => rustRules_det h h1, ?_⟩, fun n => ?_⟩
  · rintro rfl
    exact h1
  · have hd : (l.map Prod.fst).Nodup := (hp.map _).nodup_iff.mpr hu
    rw [C22_last_definition_wins, lookup_nodup_reverse hd]
    exact lookup_perm hp hd n

/-! #### Names of rules read from a PEG text are fine -/

theorem validSymbol_chars {y : Str} (h : ValidSymbol y) : '#' ∉ y ∧ '\r' ∉ y := by
  obtain ⟨c, cs, rfl, hc, hcs⟩ := h
  have h1 : ∀ d : Char, WordChar d → d ≠ '#' ∧ d ≠ '\r' := by
    intro d hd
    constructor <;> (rintro rfl; exact absurd hd (by decide))
  refine ⟨fun hm => ?_, fun hm => ?_⟩ <;>
  · rcases List.mem_cons.mp hm with rfl | hm
    · exact absurd hc (by decide)
    · rcases hcs _ hm with h | h | h
      · exact absurd h (by decide)
      · exact absurd h (by decide)
      · exact absurd h (by decide)

theorem dottedTail_chars {t : Str} (h : DottedTail t) : '#' ∉ t ∧ '\r' ∉ t := by
  induction h with
  | nil => simp
  | cons hy _ ih =>
    have := validSymbol_chars hy
    simp [ih, this]

theorem validName_raw {n : Str} (h : ValidName n) : RawStr n := by
  obtain ⟨d, y, t, hd, hy, ht, rfl⟩ := h
  have h1 := validSymbol_chars hy
  have h2 := dottedTail_chars ht
  have h3 : '#' ∉ d ∧ '\r' ∉ d := by rcases hd with rfl | rfl <;> simp
  refine ⟨fun hi => ?_, by simp [h1, h2, h3]⟩
  have : '#' ∈ d ++ y ++ t := hi.subset (by simp)
  simp [h1, h2, h3] at this

/-- **C44** for rules read from a PEG text: the generated code rebuilds the same mapping. -/
theorem C44_from_peg {s code : Str} {R : SetOfRules} (h : rulesFromPeg s = .ok R)
    (he : ∀ ne ∈ R.entries, Emittable ne.2) (hc : RustFromRules R code) :
    ∃ l, (∀ l', RustRules code l' ↔ l' = l) ∧ ∀ n, grammar (.ofList l) n = grammar R n := by
  have h1 := C32_rules_in_normal_form h
  exact C44_rules h1.2 (fun ne hne => ⟨validName_raw (h1.1 ne hne).1, he ne hne⟩) hc

/-- **C44**, refuted for a class without ranges: what is emitted is not an expression (a comma is missing). -/
theorem C44_class_without_ranges_false {cs : Str} (h : RawStr cs) :
    ¬ ∃ e, RustExpr (expr2code (.simple (.mtch cs []))) e := by
  rintro ⟨e, he⟩
  rw [expr2code, atom2code, matchRules2code, bounds2code] at he
  generalize hs : c!"ematch!(chlist r#\"" ++ cs ++ c!"\"#  " ++ [] ++ c!")" = s at he
  cases he with
  | ematch h1 hw h2 =>
    simp only [List.append_assoc, List.cons_append, List.nil_append, List.cons.injEq, true_and] at hs
    have h3 := (rawStr_det h.1 h1.1 hs).2
    have h4 := blank_det (w := c!"  ") (r := c!")") (by decide) hw (by simp) (by simp) h3
    simp at h4
  | _ => simp at hs

/-- **C44**, refuted for the EOF atom: there is no macro `eof!`. -/
theorem C44_eof_false : ¬ ∃ e, RustExpr (expr2code (.simple .eof)) e := by
  rintro ⟨e, he⟩
  rw [expr2code, atom2code] at he
  generalize hs : c!"eof!()" = s at he
  cases he <;> simp at hs

/-- **C44**, refuted for backslashes: the code for a literal with a backslash never evaluates to it. -/
theorem C44_backslash_false {v : Str} (h : '\\' ∈ v) :
    ¬ RustExpr (expr2code (.simple (.literal v))) (.simple (.literal v)) := by
  intro he
  rw [expr2code, atom2code] at he
  generalize hs : c!"lit!(\"" ++ replaceEsc v ++ c!"\")" = s at he
  cases he with
  | lit h1 =>
    simp only [List.append_assoc, List.cons_append, List.nil_append, List.cons.injEq, true_and] at hs
    have h2 := List.append_cancel_right hs
    subst h2
    exact (rustStr_replaceEsc v).1 h1 h

example : RustExpr c!"or!(rep!(lit!(\"a\\n\"), 0), ematch!(chlist r#\"_\"#  , from 'a', to 'z' ))"
    (.or [.rep (.simple (.literal c!"a\n")) 0 none, .simple (.mtch c!"_" [('a', 'z')])]) := by
  have h := (C44_expression (e := .or [.rep (.simple (.literal c!"a\n")) 0 none, .simple (.mtch c!"_" [('a', 'z')])]) ?_ _).2 rfl
  · exact h
  · refine .or ?_
    intro e he
    simp only [List.mem_cons, List.not_mem_nil, or_false] at he
    rcases he with rfl | rfl
    · exact .rep (.literal (by decide))
    · refine .cls ⟨by decide, by decide⟩ (by simp) ?_
      intro r hr
      simp only [List.mem_singleton] at hr
      subst hr
      unfold CharLit
      decide

/-! #### The conditions are necessary too -/

theorem hexNum_no_quote {ds n} (h : HexNum ds n) : '"' ∉ ds := by
  induction h with
  | nil => simp
  | @snoc ds n c d _ hc ih =>
    simp only [List.mem_append, List.mem_singleton, not_or]
    refine ⟨ih, ?_⟩
    rintro rfl
    rw [show hexVal '"' = none from by decide] at hc
    cases hc

theorem split_cons {c d : Char} {b p q : Str} (h : c :: b = p ++ d :: q) (hc : c ≠ d) : ∃ p', p = c :: p' ∧ b = p' ++ d :: q := by
  cases p with
  | nil => simp at h; exact absurd h.1 hc
  | cons x p => simp at h; exact ⟨p, by rw [h.1], h.2⟩

theorem split_skip {d : Char} : ∀ {w b p q : Str}, w ++ b = p ++ d :: q → d ∉ w → ∃ p', p = w ++ p' ∧ b = p' ++ d :: q
  | [], b, p, q, h, _ => ⟨p, rfl, h⟩
  | c :: w, b, p, q, h, hn => by
    simp only [List.mem_cons, not_or] at hn
    obtain ⟨p1, rfl, h1⟩ := split_cons h (Ne.symm hn.1)
    obtain ⟨p2, rfl, h2⟩ := split_skip h1 hn.2
    exact ⟨p2, rfl, h2⟩

/-- a double quote inside a string literal is part of `\"` -/
theorem rustStr_quote {b v} (h : RustStr b v) : ∀ {p q}, b = p ++ '"' :: q →
    ∃ b1 a c, p = b1 ++ ['\\'] ∧ RustStr b1 a ∧ v = a ++ '"' :: c := by
  induction h with
  | nil => intro p q h; simp at h
  | @plain c b v h1 h2 h3 _ ih =>
    intro p q h
    obtain ⟨p', rfl, h'⟩ := split_cons h h1
    obtain ⟨b1, a, x, rfl, h4, rfl⟩ := ih h'
    exact ⟨c :: b1, c :: a, x, rfl, .plain h1 h2 h3 h4, rfl⟩
  | @dq b v _ ih =>
    intro p q h
    obtain ⟨p', rfl, h'⟩ := split_cons h (by decide)
    cases p' with
    | nil => exact ⟨[], [], v, rfl, .nil, rfl⟩
    | cons x p' =>
      simp only [List.cons_append, List.cons.injEq] at h'
      obtain ⟨h0, h'⟩ := h'
      subst h0
      obtain ⟨b1, a, x, rfl, h4, rfl⟩ := ih h'
      exact ⟨_, _, x, rfl, .dq h4, rfl⟩
  | n _ ih | r _ ih | t _ ih | bs _ ih | nul _ ih | sq _ ih =>
    intro p q h
    obtain ⟨p1, rfl, h1⟩ := split_cons h (by decide)
    obtain ⟨p2, rfl, h2⟩ := split_cons h1 (by decide)
    obtain ⟨b1, a, x, rfl, h4, rfl⟩ := ih h2
    first
      | exact ⟨_, _, x, rfl, .n h4, rfl⟩
      | exact ⟨_, _, x, rfl, .r h4, rfl⟩
      | exact ⟨_, _, x, rfl, .t h4, rfl⟩
      | exact ⟨_, _, x, rfl, .bs h4, rfl⟩
      | exact ⟨_, _, x, rfl, .nul h4, rfl⟩
      | exact ⟨_, _, x, rfl, .sq h4, rfl⟩
  | @hex hh l b v n c hx hn hc _ ih =>
    intro p q h
    have hq := hexNum_no_quote hx
    obtain ⟨p', rfl, h'⟩ := split_skip (w := ['\\', 'x', hh, l]) h (by simpa using hq)
    obtain ⟨b1, a, x, rfl, h4, rfl⟩ := ih h'
    exact ⟨_, _, x, by simp, .hex hx hn hc h4, rfl⟩
  | @uni ds b v n c hx h1 h6 hc _ ih =>
    intro p q h
    have hq := hexNum_no_quote hx
    obtain ⟨p', rfl, h'⟩ := split_skip (w := ['\\', 'u', '{'] ++ ds ++ ['}']) (by simpa using h) (by simpa using hq)
    obtain ⟨b1, a, x, rfl, h4, rfl⟩ := ih h'
    exact ⟨'\\' :: 'u' :: '{' :: ds ++ '}' :: b1, _, x, by simp, .uni hx h1 h6 hc h4, rfl⟩
  | @cont w b v hw hb _ ih =>
    intro p q h
    have hq : '"' ∉ w := fun hm => by rcases hw _ hm with h | h | h <;> exact absurd h (by decide)
    obtain ⟨p', rfl, h'⟩ := split_skip (w := ['\\', '\n'] ++ w) (by simpa using h) (by simpa using hq)
    obtain ⟨b1, a, x, rfl, h4, rfl⟩ := ih h'
    refine ⟨'\\' :: '\n' :: w ++ b1, _, x, by simp, .cont hw ?_ h4, rfl⟩
    subst h'
    cases b1 with
    | nil => simp
    | cons y b1 => simpa using hb

theorem replaceEsc_append : ∀ x y : Str, replaceEsc (x ++ y) = replaceEsc x ++ replaceEsc y
  | [], y => by simp [replaceEsc, replaceChar]
  | c :: x, y => by rw [List.cons_append, replaceEsc_cons, replaceEsc_cons, replaceEsc_append x y, List.append_assoc]

theorem replaceEsc_quote (a c : Str) : replaceEsc (a ++ '"' :: c) = (replaceEsc a ++ ['\\']) ++ '"' :: replaceEsc c := by
  rw [replaceEsc_append, replaceEsc_cons, show escOf '"' = ['\\', '"'] from by decide]
  simp

theorem rustStr_short : ∀ (n : Nat) (a c : Str), a.length ≤ n → ¬ RustStr (replaceEsc (a ++ '"' :: c)) a
  | n, a, c, hn, h => by
    obtain ⟨b1, a', c', h1, h2, rfl⟩ := rustStr_quote h (replaceEsc_quote a c)
    have h3 := List.append_cancel_right h1
    subst h3
    cases n with
    | zero => simp at hn
    | succ n => exact rustStr_short n a' c' (by simp at hn; omega) h2

/-- The text written by `replace_esc` is not the beginning of a longer string literal for the same text. -/
theorem rustStr_longer {v t : Str} (h : RustStr (replaceEsc v ++ '"' :: t) v) : False := by
  obtain ⟨b1, a, c, h1, h2, rfl⟩ := rustStr_quote h rfl
  rw [replaceEsc_quote] at h1
  rcases List.eq_nil_or_concat (replaceEsc c) with hc | ⟨x, y, hc⟩
  · rw [hc] at h1
    have := (List.append_inj' h1 rfl).2
    simp at this
  · rw [hc] at h1
    have h3 : ((replaceEsc a ++ ['\\']) ++ '"' :: x) ++ [y] = b1 ++ ['\\'] := by simpa using h1
    have h4 := (List.append_inj' h3 rfl).1
    subst h4
    obtain ⟨b1, a', c', h5, h6, rfl⟩ := rustStr_quote h2 rfl
    have h7 := List.append_cancel_right h5
    subst h7
    exact rustStr_short _ a' c' (Nat.le_refl _) h6

/-- A string literal for a text, when it starts as the emitted one does, is the emitted one. -/
theorem rustStr_emitted {v b r r' : Str} (h : RustStr b v) (he : replaceEsc v ++ '"' :: r = b ++ '"' :: r') :
    '\\' ∉ v ∧ b = replaceEsc v ∧ r = r' := by
  rcases List.append_eq_append_iff.mp he with ⟨x, h1, h2⟩ | ⟨x, h1, h2⟩
  · cases x with
    | nil =>
      rw [List.append_nil] at h1
      subst h1
      exact ⟨(rustStr_replaceEsc v).1 h, rfl, by simpa using h2⟩
    | cons y x =>
      simp only [List.cons_append, List.cons.injEq] at h2
      obtain ⟨rfl, _⟩ := h2
      subst h1
      exact (rustStr_longer h).elim
  · cases x with
    | nil =>
      rw [List.append_nil] at h1
      subst h1
      exact ⟨(rustStr_replaceEsc v).1 h, rfl, by simpa using h2.symm⟩
    | cons y x =>
      exfalso
      have hr := replaceEsc_raw v
      rw [h1] at hr
      simp only [List.mem_append, not_or] at hr
      have h3 := rustStr_length h hr.1.1 hr.2.1
      have h4 := replaceEsc_length v
      rw [h1] at h4
      have h5 : v.countP isEsc ≤ v.countP (fun c => isEsc c || c == '\\') :=
        List.countP_mono_left (by intro x _ hx; simp [hx])
      simp only [List.length_append, List.length_cons] at h4
      omega

theorem rustRanges_wf {s rs} (h : RustRanges s rs) : rs ≠ [] ∧ ∀ r ∈ rs, CharLit r.1 ∧ CharLit r.2 := by
  induction h with
  | one h =>
    refine ⟨by simp, ?_⟩
    cases h with
    | mk _ _ _ _ _ ha hb => simpa using ⟨ha, hb⟩
  | cons h _ ih =>
    refine ⟨by simp, ?_⟩
    cases h with
    | mk _ _ _ _ _ ha hb =>
      intro r hr
      rcases List.mem_cons.mp hr with rfl | hr
      · exact ⟨ha, hb⟩
      · exact ih.2 r hr

theorem expr2code_head (e : Expr) (r : Str) : ∀ c ∈ (expr2code e ++ r).head?, c ≠ ' ' ∧ c ≠ '\n' := by
  cases e with
  | simple a => cases a <;> simp [expr2code, atom2code, matchRules2code]
  | rep e mn mx => cases mx <;> simp [expr2code]
  | _ => simp [expr2code]

mutual
/-- An expression of Rust that evaluates to `e` and starts as the code emitted for `e` does: then `e` is
emittable. -/
theorem emittable_of : ∀ e : Expr, ∀ {d r r'}, RustExpr d e → expr2code e ++ r = d ++ r' → Emittable e
  | .simple a, d, r, r', h, he => by
    cases h with
    | lit h =>
      simp only [expr2code, atom2code, List.append_assoc, List.cons_append, List.nil_append, List.cons.injEq, true_and] at he
      exact .literal (rustStr_emitted h he).1
    | error h =>
      simp only [expr2code, atom2code, List.append_assoc, List.cons_append, List.nil_append, List.cons.injEq, true_and] at he
      exact .error (rustStr_emitted h he).1
    | dot => exact .dot
    | ematch h1 _ h2 => exact .cls h1 (rustRanges_wf h2).1 (rustRanges_wf h2).2
  | .ruleName n, d, r, r', h, he => by
    cases h with
    | ref h => exact .ref h
  | .not e, d, r, r', h, he => by
    cases h with
    | not h =>
      simp only [expr2code, List.append_assoc, List.cons_append, List.nil_append, List.cons.injEq, true_and] at he
      exact .not (emittable_of e h he)
  | .rep e mn mx, d, r, r', h, he => by
    cases h with
    | rep h =>
      simp only [expr2code, List.append_assoc, List.cons_append, List.nil_append, List.cons.injEq, true_and] at he
      exact .rep (emittable_of e h he)
    | repMax h =>
      simp only [expr2code, List.append_assoc, List.cons_append, List.nil_append, List.cons.injEq, true_and] at he
      exact .rep (emittable_of e h he)
  | .and es, d, r, r', h, he => by
    cases h with
    | and h =>
      simp only [expr2code, List.append_assoc, List.cons_append, List.nil_append, List.cons.injEq, true_and] at he
      exact .and (emittable_ofL es h he)
  | .or es, d, r, r', h, he => by
    cases h with
    | or h =>
      simp only [expr2code, List.append_assoc, List.cons_append, List.nil_append, List.cons.injEq, true_and] at he
      exact .or (emittable_ofL es h he)
theorem emittable_ofL : ∀ es : List Expr, ∀ {d r r'}, RustArgs d es → mexpr2code [] es ++ r = d ++ r' → ∀ e ∈ es, Emittable e
  | [], _, _, _, _, _ => by simp
  | e :: es, d, r, r', h, he => by
    rw [mexpr2code_cons, List.append_assoc] at he
    cases h with
    | one h => simpa using emittable_of e h he
    | @cons s _ w t _ h1 hw h2 hn =>
      simp only [List.append_assoc] at he
      have h3 := emittable_of e h1 he
      have ⟨h4, _, h5⟩ := rustExpr_det (expr2code_sound e h3) h1 he
      cases es with
      | nil => exact absurd rfl hn
      | cons e' es =>
        have h6 : c!"," ++ (c!" " ++ (mexpr2code [] (e' :: es) ++ r)) = c!"," ++ (w ++ (t ++ r')) := by
          rw [mexpr2code_cons]
          simpa using h5
        have h7 : c!" " ++ (mexpr2code [] (e' :: es) ++ r) = w ++ (t ++ r') := List.append_cancel_left h6
        have h8 := blank_det (w := c!" ") (by decide) hw (by rw [mexpr2code_cons, List.append_assoc]; exact expr2code_head e' _) (rustArgs_blank h2 hn) h7
        have h9 := emittable_ofL (e' :: es) h2 h8.2
        intro x hx
        rcases List.mem_cons.mp hx with rfl | hx
        · exact h3
        · exact h9 x hx
end

/-- **C44**, exactly: the code generated for an expression evaluates to it if and only if the expression is
one of those described by `Emittable`. -/
theorem C44_exact (e : Expr) : RustExpr (expr2code e) e ↔ Emittable e :=
  ⟨fun h => emittable_of e h (r := []) (r' := []) rfl, expr2code_sound e⟩

theorem entry_emittable {s w r r' : Str} {ne : Str × Expr} (h : RustEntry s ne) (hw : Blank w)
    (he : w ++ rule2code ne.1 ne.2 ++ r = s ++ r') :
    (RawStr ne.1 ∧ Emittable ne.2) ∧ s = w ++ rule2code ne.1 ne.2 ∧ r = r' := by
  have h0 := h
  have h1 : RawStr ne.1 ∧ Emittable ne.2 := by
    obtain ⟨w1, w2, w3, code, a1, a2, a3, a4, a5, rfl⟩ := h
    refine ⟨a4, ?_⟩
    have he' := he
    simp only [rule2code, List.append_assoc] at he'
    replace he' := (blank_det hw a1 (by simp) (by simp) he').2
    replace he' := List.append_cancel_left (List.append_cancel_left he')
    simp only [List.cons_append, List.nil_append, List.cons.injEq, true_and] at he'
    replace he' := (blank_det (w := c!" ") (by decide) a2 (by simp) (by simp) he').2
    simp only [List.cons_append, List.nil_append, List.cons.injEq, true_and] at he'
    replace he' := (blank_det (w := c!" ") (by decide) a3 (expr2code_head _ _) (rustExpr_noblank a5) he').2
    exact emittable_of _ a5 he'
  have h2 := rustEntry_det (rule2code_entry h1 hw) h0 he
  exact ⟨h1, h2.1.symm, h2.2.2⟩

/-- **C44**, exactly, for a list of rules. -/
theorem C44_rules_exact (l : List (Str × Expr)) :
    RustRules (rustFromEntries l) l ↔ ∀ ne ∈ l, RawStr ne.1 ∧ Emittable ne.2 := by
  rw [rustFromEntries_layout]
  refine ⟨?_, layOut_sound l⟩
  have hb : Blank c!"\n       " := by unfold Blank; decide
  have key : ∀ (l : List (Str × Expr)) (x : Str × Expr) (w : Str), Blank w →
      RustRules (w ++ rule2code x.1 x.2 ++ ((l.map fun ne => rule2code ne.1 ne.2).map (c!"\n       , " ++ ·)).flatten)
        (x :: l) → ∀ ne ∈ x :: l, RawStr ne.1 ∧ Emittable ne.2 := by
    intro l
    induction l with
    | nil =>
      intro x w hw h
      generalize hs : w ++ rule2code x.1 x.2 ++ _ = s at h
      cases h with
      | one h1 h2 => simpa using (entry_emittable h1 hw hs).1
      | cons _ _ _ hn => exact absurd rfl hn
    | cons y l ih =>
      intro x w hw h
      generalize hs : w ++ rule2code x.1 x.2 ++ _ = s at h
      cases h with
      | @cons s w' _ t _ h1 h2 h3 _ =>
        simp only [List.append_assoc s] at hs
        obtain ⟨h4, _, h5⟩ := entry_emittable h1 hw hs
        have h6 : c!"\n       " ++ (c!"," ++ (c!" " ++ rule2code y.1 y.2 ++ ((l.map fun ne => rule2code ne.1 ne.2).map (c!"\n       , " ++ ·)).flatten)) =
            w' ++ (c!"," ++ t) := by simpa using h5
        have h7 := List.append_cancel_left (blank_det hb h2 (by simp) (by simp) h6).2
        rw [← h7] at h3
        have h8 := ih y c!" " (by unfold Blank; decide) h3
        intro ne hne
        rcases List.mem_cons.mp hne with rfl | hne
        · exact h4
        · exact h8 ne hne
  intro h
  cases l with
  | nil => simp
  | cons x l => exact key l x c!"\n         " (by unfold Blank; decide) h

/-- a class whose ranges include the apostrophe, a name with `"#`: neither comes back -/
example : ¬ RustExpr (expr2code (.and [.ruleName c!"a", .simple (.mtch [] [('\'', 'z')])]))
    (.and [.ruleName c!"a", .simple (.mtch [] [('\'', 'z')])]) := by
  rw [C44_exact]
  intro h
  cases h with
  | and h =>
    have h1 := h (.simple (.mtch [] [('\'', 'z')])) (by simp)
    cases h1 with
    | cls _ _ h => exact (h _ List.mem_cons_self).1.1 rfl

example : ¬ RustExpr (expr2code (.not (.ruleName c!"a\"#"))) (.not (.ruleName c!"a\"#")) := by
  rw [C44_exact]
  intro h
  cases h with
  | not h =>
    cases h with
    | ref h => exact h.1 (by decide)

end DP
