/-
C91: what the generated code makes of the quotes of a PEG text. `rules_from_peg` doubles the backslashes of single-quoted
literals (src/peg/mod.rs:793) and `rust_from_rules` does not escape backslashes (src/peg/gcode.rs:90-95).
-/
import Verif.Proofs.Requote
import Verif.Props.Gcode
import Verif.Props.Syntax
import Verif.Props.Core

namespace DP
open Spec Spec.Syntax Gcode

/-- Rust reads the doubled backslashes as single ones -/
theorem rustStr_doubled : ∀ v : Str, RustStr (replaceEsc (doubled v)) v
  | [] => .nil
  | c :: v => by
    have ih := rustStr_doubled v
    rw [doubled_cons, replaceEsc_append]
    by_cases hc : c = '\\'
    · subst hc
      exact .bs ih
    · have h1 := replaceEsc_cons c []
      rw [if_neg hc, h1]
      have e0 : replaceEsc [] = [] := rfl
      rw [e0, List.append_nil]
      unfold escOf
      split
      · next e => subst e; exact .n ih
      split
      · next e => subst e; exact .r ih
      split
      · next e => subst e; exact .t ih
      split
      · next e => subst e; exact .dq ih
      · next h1 h2 h3 h4 => exact .plain h4 hc h2 ih

mutual
theorem expr2code_doubled : ∀ e, EmitShape (doubledE e) → RustExpr (expr2code (doubledE e)) e
  | .simple (.literal v), _ => by
    rw [doubledE, expr2code]
    exact .lit (rustStr_doubled v)
  | .simple (.error v), _ => by
    rw [doubledE, expr2code]
    exact .error (rustStr_doubled v)
  | .simple .dot, _ => expr2code_sound _ .dot
  | .simple (.mtch cs rs), h => by
    rw [doubledE] at h ⊢
    · cases h with
      | cls h1 h2 h3 => exact expr2code_sound _ (.cls h1 h2 h3)
    all_goals simp
  | .simple .eof, h => by
    rw [doubledE] at h
    · cases h
    all_goals simp
  | .and es, h => by
    rw [doubledE] at h ⊢
    rw [expr2code]
    cases h with
    | and h => exact .and (args_doubled es h)
  | .or es, h => by
    rw [doubledE] at h ⊢
    rw [expr2code]
    cases h with
    | or h => exact .or (args_doubled es h)
  | .not e, h => by
    rw [doubledE] at h ⊢
    rw [expr2code]
    cases h with
    | not h => exact .not (expr2code_doubled e h)
  | .rep e mn none, h => by
    rw [doubledE] at h ⊢
    rw [expr2code]
    cases h with
    | rep h =>
      have := RustExpr.rep (w := c!" ") (expr2code_doubled e h) (by unfold Blank; decide) (natCode_dec mn)
      simpa using this
  | .rep e mn (some mx), h => by
    rw [doubledE] at h ⊢
    rw [expr2code]
    cases h with
    | rep h =>
      have := RustExpr.repMax (w := c!" ") (w' := c!" ") (expr2code_doubled e h) (by unfold Blank; decide)
        (natCode_dec mn) (by unfold Blank; decide) (natCode_dec mx)
      simpa using this
  | .ruleName n, h => by
    rw [doubledE] at h ⊢
    cases h with
    | ref h => exact expr2code_sound _ (.ref h)
theorem args_doubled : ∀ es : List Expr, (∀ e ∈ doubledL es, EmitShape e) → RustArgs (mexpr2code [] (doubledL es)) es
  | [], _ => .nil
  | [e], h => .one (expr2code_doubled e (h _ (by simp [doubledL])))
  | e :: e' :: es, h => by
    have h1 := args_doubled (e' :: es) (fun x hx => h x (by rw [doubledL]; exact List.mem_cons_of_mem _ hx))
    have h2 := RustArgs.cons (w := c!" ") (expr2code_doubled e (h _ (by simp [doubledL]))) (by unfold Blank; decide) h1 (by simp)
    have e1 : doubledL (e :: e' :: es) = doubledE e :: doubledE e' :: doubledL es := by simp [doubledL]
    have e2 : doubledL (e' :: es) = doubledE e' :: doubledL es := by simp [doubledL]
    rw [e2] at h2
    rw [e1]
    rw [mexpr2code_cons] at h2 ⊢
    simpa using h2
end

/-- **C91**: the code generated for an expression with doubled backslashes evaluates to the expression with single ones,
and to nothing else. -/
theorem C91_expression {e : Expr} (h : EmitShape (doubledE e)) (e' : Expr) : RustExpr (expr2code (doubledE e)) e' ↔ e' = e := by
  constructor
  · intro h'
    exact (rustExpr_det h' (expr2code_doubled e h) (r := []) (r' := []) rfl).2.1
  · rintro rfl
    exact expr2code_doubled _ h

theorem layOut_reads (f : Expr → Expr) : ∀ (l : List (Str × Expr)), (∀ ne ∈ l, RawStr ne.1 ∧ RustExpr (expr2code (f ne.2)) ne.2) →
    RustRules (layOut (l.map fun ne => rule2code ne.1 (f ne.2))) l := by
  have hb : Blank c!"\n       " := by unfold Blank; decide
  have entry : ∀ {ne : Str × Expr}, RawStr ne.1 ∧ RustExpr (expr2code (f ne.2)) ne.2 → ∀ {w : Str}, Blank w →
      RustEntry (w ++ rule2code ne.1 (f ne.2)) ne := by
    intro ne h w hw
    exact ⟨w, c!" ", c!" ", _, hw, by unfold Blank; decide, by unfold Blank; decide, h.1, h.2, by simp [rule2code]⟩
  have key : ∀ (l : List (Str × Expr)) (x : Str × Expr) (w : Str), Blank w →
      (∀ ne ∈ x :: l, RawStr ne.1 ∧ RustExpr (expr2code (f ne.2)) ne.2) →
      RustRules (w ++ rule2code x.1 (f x.2) ++ ((l.map fun ne => rule2code ne.1 (f ne.2)).map (c!"\n       , " ++ ·)).flatten)
        (x :: l) := by
    intro l
    induction l with
    | nil =>
      intro x w hw h
      have := RustRules.one (w := []) (entry (h x (by simp)) hw) (by simp [Blank])
      simpa using this
    | cons y l ih =>
      intro x w hw h
      have h1 := ih y c!" " (by unfold Blank; decide) (fun ne hne => h ne (List.mem_cons_of_mem _ hne))
      have h2 := RustRules.cons (entry (h x (by simp)) hw) hb h1 (by simp)
      simpa using h2
  intro l h
  cases l with
  | nil => exact .nil (w := []) (by simp [Blank])
  | cons x l => exact key l x c!"\n         " (by unfold Blank; decide) h

theorem lookup_of_mem {l : List (Str × Expr)} (hd : (l.map Prod.fst).Nodup) {ne : Str × Expr} (h : ne ∈ l) :
    l.lookup ne.1 = some ne.2 := by
  induction l with
  | nil => cases h
  | cons x l ih =>
    simp only [List.map_cons, List.nodup_cons] at hd
    rw [List.lookup_cons]
    rcases List.mem_cons.mp h with rfl | h
    · simp
    · have : (ne.1 == x.1) = false := by
        rw [beq_eq_false_iff_ne]
        exact fun e => hd.1 (e ▸ List.mem_map_of_mem h)
      rw [this]
      exact ih hd.2 h

theorem lookup_of_not_mem {l : List (Str × Expr)} {n : Str} (h : n ∉ l.map Prod.fst) : l.lookup n = none := by
  induction l with
  | nil => rfl
  | cons x l ih =>
    simp only [List.map_cons, List.mem_cons, not_or] at h
    rw [List.lookup_cons]
    rw [beq_eq_false_iff_ne.mpr h.1]
    exact ih h.2

/-- **C91**: let no double-quoted literal of an accepted text denote a backslash, and let the classes be ones for which code
can be generated (C44). Then the code generated from the rules of the text is read by Rust in one way, and it builds
the rules of the text in which every single-quoted literal is written between double quotes, with escapes: in
generated code single-quoted literals are verbatim. -/
theorem C91_generated_code {d : Doc} {R : SetOfRules} {code : Str} (h : d.OK) (hR : rulesFromPeg d.str = .ok R) (hc : d.Clean)
    (he : ∀ ne ∈ R.entries, EmitShape ne.2) (hg : RustFromRules R code) :
    ∃ R', rulesFromPeg d.requote.str = .ok R' ∧
      ∃ l, (∀ l', RustRules code l' ↔ l' = l) ∧ ∀ n, grammar (.ofList l) n = grammar R' n := by
  have ha := C31_ok_only_on_ascii hR
  have h0 := rulesFromPeg_denote h ha
  cases hd : d.denote with
  | none =>
    obtain ⟨e, he⟩ := h0.2 hd
    rw [he] at hR
    cases hR
  | some m =>
    obtain ⟨R0, k1, k2, k3⟩ := h0.1 m hd
    rw [hR] at k1
    cases k1
    obtain ⟨q1, q2, m', q3, q4⟩ := doc_requote h ha hc hd
    obtain ⟨R', r1, r2, r3⟩ := (rulesFromPeg_denote q1 q2).1 m' q3
    refine ⟨R', r1, ?_⟩
    have hGG : ∀ x, grammar R x = (grammar R' x).map doubledE := by
      rw [k2, r2]
      exact q4
    obtain ⟨order, hp, rfl⟩ := hg
    have hdo : (order.map Prod.fst).Nodup := (hp.map _).nodup_iff.mpr k3
    have hlo : ∀ n, order.lookup n = grammar R n := fun n => lookup_perm hp hdo n
    have hraw := (C32_rules_in_normal_form hR).1
    have build : ∀ o : List (Str × Expr), (∀ ne ∈ o, grammar R ne.1 = some ne.2) →
        ∃ l : List (Str × Expr), o = l.map (fun ne => (ne.1, doubledE ne.2)) ∧ ∀ ne ∈ l, grammar R' ne.1 = some ne.2 := by
      intro o
      induction o with
      | nil => intro _; exact ⟨[], rfl, by simp⟩
      | cons x o ih =>
        intro ho
        obtain ⟨l, rfl, hl⟩ := ih (fun ne hne => ho ne (List.mem_cons_of_mem _ hne))
        have hx := ho x (by simp)
        rw [hGG] at hx
        obtain ⟨e', h1, h2⟩ := Option.map_eq_some_iff.mp hx
        refine ⟨(x.1, e') :: l, by rw [List.map_cons, h2], ?_⟩
        intro ne hne
        rcases List.mem_cons.mp hne with rfl | hne
        · exact h1
        · exact hl ne hne
    obtain ⟨l, rfl, hl⟩ := build order (fun ne hne => by rw [← hlo]; exact lookup_of_mem hdo hne)
    have hkeys : (l.map fun ne => (ne.1, doubledE ne.2)).map Prod.fst = l.map Prod.fst := by
      rw [List.map_map]
      rfl
    have h1 : RustRules (rustFromEntries (l.map fun ne => (ne.1, doubledE ne.2))) l := by
      rw [rustFromEntries_layout, List.map_map]
      refine layOut_reads doubledE l (fun ne hne => ?_)
      have hm : (ne.1, doubledE ne.2) ∈ R.entries := hp.mem_iff.mp (List.mem_map.mpr ⟨ne, hne, rfl⟩)
      exact ⟨validName_raw (hraw _ hm).1, expr2code_doubled _ (he _ hm)⟩
    refine ⟨l, fun l' => ⟨fun h => rustRules_det h h1, ?_⟩, fun n => ?_⟩
    · rintro rfl
      exact h1
    · have hdl : (l.map Prod.fst).Nodup := hkeys ▸ hdo
      rw [C22_last_definition_wins, lookup_nodup_reverse hdl]
      by_cases hn : n ∈ l.map Prod.fst
      · obtain ⟨ne, hne, rfl⟩ := List.mem_map.mp hn
        rw [lookup_of_mem hdl hne, hl ne hne]
      · rw [lookup_of_not_mem hn]
        have h2 := hlo n
        rw [lookup_of_not_mem (by rw [hkeys]; exact hn), hGG] at h2
        cases hq : grammar R' n with
        | none => rfl
        | some e => rw [hq] at h2; cases h2

/-- **C91**: so the parsers built by the generated code are those of the text with double quotes, while `parse` with the
rules of the text itself looks for doubled backslashes. -/
theorem C91_parse {d : Doc} {R : SetOfRules} {code : Str} (h : d.OK) (hR : rulesFromPeg d.str = .ok R) (hc : d.Clean)
    (he : ∀ ne ∈ R.entries, EmitShape ne.2) (hg : RustFromRules R code) :
    ∃ R', rulesFromPeg d.requote.str = .ok R' ∧
      ∃ l, RustRules code l ∧ ∀ s, parse s (.ofList l) = parse s R' ∧ parseDebug s (.ofList l) = parseDebug s R' := by
  obtain ⟨R', h1, l, h2, h3⟩ := C91_generated_code h hR hc he hg
  exact ⟨R', h1, l, (h2 l).2 rfl, fun s => C23_unreachable_rules_are_irrelevant (fun n _ => h3 n) s⟩

theorem parse_literal {R : SetOfRules} {v : Str} (h : grammar R c!"main" = some (.simple (.literal v))) {s : Str} (ha : Ascii s) :
    (∃ t, parse s R = .ok t) ↔ s = v := by
  have h1 : ∀ t, parse s R = .ok t ↔ parse s ⟨[(c!"main", .simple (.literal v))]⟩ = .ok t := by
    intro t
    rw [(C23_unreachable_rules_are_irrelevant (R := ⟨[(c!"main", .simple (.literal v))]⟩) (R' := R) ?_ s).1]
    intro n hn
    have : n = c!"main" := by
      induction hn with
      | main => rfl
      | @step n e m hn hg hm ih =>
        subst ih
        cases hg
        cases hm
    subst this
    exact h
  have hb : RulesBoundsOK ⟨[(c!"main", .simple (.literal v))]⟩ := by
    intro ne h
    simp only [List.mem_singleton] at h
    subst h
    exact .simple _
  simp only [h1, C02_parse_ok_iff_peg _ ha hb]
  constructor
  · rintro ⟨t, h⟩
    cases h with
    | call_ok hg h2 =>
      cases hg
      cases h2 with
      | lit_ok => rw [List.append_nil]
  · rintro rfl
    have := Peg.lit_ok (G := grammar ⟨[(c!"main", .simple (.literal s))]⟩) s []
    rw [List.append_nil] at this
    exact ⟨_, .call_ok rfl this⟩

/-- **C91** for one literal: with the rules of `main = 'b'` itself the accepted text is `b` with every backslash
doubled; with the rules built by the generated code it is `b`. -/
theorem C91_single_quoted {b : Str} (hne : b ≠ []) (hq : '\'' ∉ b) (hb : Ascii b) :
    ∃ R, rulesFromPeg (c!"main = '" ++ b ++ c!"'\n") = .ok R ∧
      (∀ s, Ascii s → ((∃ t, parse s R = .ok t) ↔ s = doubled b)) ∧
      ∀ code, RustFromRules R code → ∃ l, (∀ l', RustRules code l' ↔ l' = l) ∧
        ∀ s, Ascii s → ((∃ t, parse s (.ofList l) = .ok t) ↔ s = b) := by
  refine ⟨_, C35_single_quoted hne hq hb, fun s ha => parse_literal rfl ha, fun code hg => ?_⟩
  have e1 : c!"main = '" ++ b ++ c!"'\n" = (litDoc (.single b)).str := by rw [litDoc_str]; simp [Lit.str]
  have hR := C35_single_quoted hne hq hb
  rw [e1] at hR
  obtain ⟨R', h1, l, h2, h3⟩ := C91_generated_code (litDoc_ok (l := .single b) hq) hR (by simp [litDoc, Doc.Clean, Defs.Clean, Def.Clean, Alt.Clean, Seq.Clean, Item.Clean, Atom.Clean, Tail.Clean, Lit.Clean])
    (by intro ne hne; simp only [List.mem_singleton] at hne; subst hne; exact .literal) hg
  refine ⟨l, h2, fun s ha => parse_literal ?_ ha⟩
  have hv : ValidLiteral b := fun c hc => Nat.lt_trans (hb c hc) (by decide)
  have e2 : (litDoc (.single b)).requote = litDoc (litOf b) := rfl
  rw [e2, litDoc_str, (literal_read (l := litOf b) (piecesOf_ok hv) (litOf_ascii hv)).1 b (litOf_val hv)] at h1
  cases h1
  rw [h3]
  rfl

/-- **C91**: no way to quote it makes a literal with a backslash the same in the rules and in the code generated from them. -/
theorem C91_no_quotes {l : Lit} {v : Str} (h : l.OK) (ha : Ascii l.str) (hv : l.val = some v) :
    ∃ R, rulesFromPeg (c!"main = " ++ l.str ++ c!"\n") = .ok R ∧ R.entries = [(c!"main", .simple (.literal v))] ∧
      ∀ code, RustFromRules R code → (RustRules code R.entries ↔ '\\' ∉ v) := by
  refine ⟨_, (literal_read h ha).1 v hv, rfl, fun code hg => ?_⟩
  obtain ⟨order, hp, rfl⟩ := hg
  have ho : order = [(c!"main", .simple (.literal v))] := List.perm_singleton.mp hp
  subst ho
  have hraw : RawStr c!"main" := ⟨by decide, by decide⟩
  refine (C44_rules_exact _).trans ⟨fun h1 => ?_, fun hm ne hne => ?_⟩
  · cases (h1 _ (List.mem_singleton.mpr rfl)).2 with
    | literal h => exact h
  · simp only [List.mem_singleton] at hne
    subst hne
    exact ⟨hraw, .literal hm⟩

/-- `main = !'a' [\a-a]` -/
def slashText : Str := c!"main = !'a' [\\a-a]\n"

def slashRules : SetOfRules := ⟨[(c!"main", .and [.not (.simple (.literal c!"a")), .simple (.mtch c!"\\" [('a', 'a')])])]⟩

/-- **C91**: a class can: the rule `main = !'a' [\a-a]` accepts the backslash and nothing else, and so do the rules built
by the code generated for it. -/
theorem C91_class : rulesFromPeg slashText = .ok slashRules ∧
    (∀ s, Ascii s → ((∃ t, parse s slashRules = .ok t) ↔ s = c!"\\")) ∧
    ∀ code, RustFromRules slashRules code → ∃ l, (∀ l', RustRules code l' ↔ l' = l) ∧
      ∀ s, parse s (.ofList l) = parse s slashRules := by
  have hb : RulesBoundsOK slashRules := by
    intro ne h
    simp only [slashRules, List.mem_singleton] at h
    subst h
    refine .and fun e he => ?_
    simp only [List.mem_cons, List.not_mem_nil, or_false] at he
    rcases he with rfl | rfl
    · exact .not (.simple _)
    · exact .simple _
  have hg : grammar slashRules c!"main" = some (.and [.not (.simple (.literal c!"a")), .simple (.mtch c!"\\" [('a', 'a')])]) := rfl
  refine ⟨rulesFromPeg_of 200 (by decide +kernel), fun s ha => ?_, fun code hc => ?_⟩
  · simp only [C02_parse_ok_iff_peg _ ha hb]
    constructor
    · rintro ⟨t, h⟩
      cases h with
      | call_ok hg' h2 =>
        rw [hg] at hg'
        cases hg'
        cases h2 with
        | and_ok h3 h4 =>
          have nota : ∀ {r ns}, Peg (grammar slashRules) (.and [.simple (.mtch c!"\\" [('a', 'a')])]) s (.ok r ns) →
              r = [] → ¬ c!"a" <+: s → s = c!"\\" := by
            intro r ns h hr hn
            cases h with
            | and_ok h5 h6 =>
              cases h6
              subst hr
              cases h5 with
              | class_ok _ _ c _ hc =>
                rcases hc with hc | ⟨p, hp, h7, h8⟩
                · simp only [List.mem_singleton] at hc
                  rw [hc]
                · simp only [List.mem_singleton] at hp
                  subst hp
                  have : c = 'a' := Char.toNat_inj.mp (Nat.le_antisymm h8 h7)
                  subst this
                  exact absurd (List.prefix_refl _) hn
          cases h3 with
          | not_fail h5 =>
            cases h5 with
            | lit_fail _ _ hn => exact nota h4 rfl hn
          | not_crit h5 => cases h5
    · rintro rfl
      refine ⟨_, .call_ok hg (.and_ok (.not_fail (.lit_fail _ _ (by decide))) (.and_ok (.class_ok _ _ _ _ (Or.inl (by decide))) (.and_nil _)))⟩
  · obtain ⟨l, h1, h2⟩ := C44_from_peg (s := slashText) (rulesFromPeg_of 200 (by decide +kernel)) (R := slashRules) (by
      intro ne h
      simp only [slashRules, List.mem_singleton] at h
      subst h
      refine .and fun e he => ?_
      simp only [List.mem_cons, List.not_mem_nil, or_false] at he
      rcases he with rfl | rfl
      · exact .not (.literal (by decide))
      · exact .cls ⟨by decide, by decide⟩ (by simp) (by simp [CharLit])) hc
    exact ⟨l, h1, fun s => (C23_unreachable_rules_are_irrelevant (fun n _ => h2 n) s).1⟩

/-- `main = '\d'`: the rules accept `\\d`, the generated code `lit!("\\d")` accepts `\d` -/
example : ∃ R, rulesFromPeg c!"main = '\\d'\n" = .ok R ∧ (∃ t, parse c!"\\\\d" R = .ok t) ∧ (¬ ∃ t, parse c!"\\d" R = .ok t) ∧
    ∀ code, RustFromRules R code → ∃ l, RustRules code l ∧ ∃ t, parse c!"\\d" (.ofList l) = .ok t := by
  obtain ⟨R, h1, h2, h3⟩ := C91_single_quoted (b := c!"\\d") (by decide) (by decide) (by decide)
  refine ⟨R, h1, (h2 _ (by decide)).2 (by decide), fun h => absurd ((h2 _ (by decide)).1 h) (by decide), fun code hc => ?_⟩
  obtain ⟨l, h4, h5⟩ := h3 code hc
  exact ⟨l, (h4 l).2 rfl, (h5 _ (by decide)).2 rfl⟩

example : expr2code (doubledE (.simple (.literal c!"\\d"))) = c!"lit!(\"\\\\d\")" := by decide

end DP
