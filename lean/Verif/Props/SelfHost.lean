/-
Property C42: the table of src/peg/rules.rs is what the generator makes of the PEG grammar of PEG.
-/
import Verif.Model.PegText
import Verif.Spec.SelfDoc
import Verif.Proofs.SynCheck
import Verif.Props.Gcode

namespace DP
open Spec Spec.Syntax Gcode

theorem selfDoc_str : selfDoc.str = PegText.textPeg2code := by decide +kernel

theorem selfDoc_ok : selfDoc.OK := docOK_sound (by decide +kernel)

/-- **C42**: `rules_from_peg(text_peg2code())` succeeds, and the code generated for its rules is, rule by
rule, the source text of the table in src/peg/rules.rs. -/
theorem C42_table_entries : ∃ R, rulesFromPeg PegText.textPeg2code = .ok R ∧
    (R.entries.map fun ne => rule2code ne.1 ne.2).Perm PegText.tableSource := by
  have h : (match defsRules SetOfRules.empty selfDoc.defs with
      | some R => (R.entries.map fun ne => rule2code ne.1 ne.2).isPerm PegText.tableSource
      | none => false) = true := by decide +kernel
  have h1 := rulesFromPeg_doc selfDoc_ok (by decide +kernel)
  rw [selfDoc_str] at h1
  cases hd : defsRules SetOfRules.empty selfDoc.defs with
  | none => rw [hd] at h; cases h
  | some R =>
    rw [hd] at h
    exact ⟨R, h1.1 R hd, List.isPerm_iff.mp h⟩

theorem perm_of_map {α β : Type} {f : α → β} {a b : List β} (h : a.Perm b) :
    ∀ Z : List α, b = Z.map f → ∃ Z' : List α, Z'.Perm Z ∧ a = Z'.map f := by
  induction h with
  | nil => exact fun Z hZ => ⟨Z, .refl _, hZ⟩
  | cons x h ih =>
    intro Z hZ
    cases Z with
    | nil => cases hZ
    | cons z Z =>
      rw [List.map_cons, List.cons.injEq] at hZ
      obtain ⟨Z', h1, h2⟩ := ih Z hZ.2
      exact ⟨z :: Z', h1.cons z, by rw [List.map_cons, ← h2, hZ.1]⟩
  | swap x y l =>
    intro Z hZ
    match Z, hZ with
    | z :: z' :: Z, hZ =>
      rw [List.map_cons, List.map_cons, List.cons.injEq, List.cons.injEq] at hZ
      exact ⟨z' :: z :: Z, .swap _ _ _, by rw [hZ.1, hZ.2.1, hZ.2.2]; rfl⟩
  | trans h1 h2 ih1 ih2 =>
    intro Z hZ
    obtain ⟨Z1, p1, rfl⟩ := ih2 Z hZ
    obtain ⟨Z2, p2, e2⟩ := ih1 Z1 rfl
    exact ⟨Z2, p2.trans p1, e2⟩

/-- the code of an entry, after any blanks -/
def EntryCode (x : Str) (ne : Str × Expr) : Prop := ∀ w, Blank w → RustEntry (w ++ x) ne

theorem layOut_entries : ∀ (Z : List (Str × (Str × Expr))), (∀ z ∈ Z, EntryCode z.1 z.2) → RustRules (layOut (Z.map Prod.fst)) (Z.map Prod.snd) := by
  have hb : Blank c!"\n       " := by unfold Blank; decide
  have key : ∀ (Z : List (Str × (Str × Expr))) (z : Str × (Str × Expr)) (w : Str), Blank w → (∀ y ∈ z :: Z, EntryCode y.1 y.2) →
      RustRules (w ++ z.1 ++ ((Z.map Prod.fst).map (c!"\n       , " ++ ·)).flatten) (z.2 :: Z.map Prod.snd) := by
    intro Z
    induction Z with
    | nil =>
      intro z w hw h
      have := RustRules.one (w := []) (h z (by simp) w hw) (by simp [Blank])
      simpa using this
    | cons y Z ih =>
      intro z w hw h
      have h1 := ih y c!" " (by unfold Blank; decide) (fun ne hne => h ne (List.mem_cons_of_mem _ hne))
      have h2 := RustRules.cons (h z (by simp) w hw) hb h1 (by simp)
      simpa using h2
  intro Z h
  cases Z with
  | nil => exact .nil (w := []) (by simp [Blank])
  | cons z Z => exact key Z z c!"\n         " (by unfold Blank; decide) h

instance (v : Str) : Decidable (RawStr v) := by unfold RawStr; infer_instance
instance (c : Char) : Decidable (CharLit c) := by unfold CharLit; infer_instance

mutual
def emittable : Expr → Bool
  | .simple (.literal l) => decide ('\\' ∉ l)
  | .simple (.error l) => decide ('\\' ∉ l)
  | .simple .dot => true
  | .simple .eof => false
  | .simple (.mtch cs rs) => decide (RawStr cs) && decide (rs ≠ []) && decide (∀ r ∈ rs, CharLit r.1 ∧ CharLit r.2)
  | .ruleName n => decide (RawStr n)
  | .and es => emittables es
  | .or es => emittables es
  | .not e => emittable e
  | .rep e _ _ => emittable e
def emittables : List Expr → Bool
  | [] => true
  | e :: es => emittable e && emittables es
end

mutual
theorem emittable_sound : ∀ e, emittable e = true → Emittable e
  | .simple (.literal l), h => by rw [emittable] at h; exact .literal (of_decide_eq_true h)
  | .simple (.error l), h => by rw [emittable] at h; exact .error (of_decide_eq_true h)
  | .simple .dot, _ => .dot
  | .simple .eof, h => by rw [emittable] at h; cases h
  | .simple (.mtch cs rs), h => by
    simp only [emittable, Bool.and_eq_true, decide_eq_true_eq] at h
    exact .cls h.1.1 h.1.2 h.2
  | .ruleName n, h => by rw [emittable] at h; exact .ref (of_decide_eq_true h)
  | .and es, h => by rw [emittable] at h; exact .and (emittables_sound es h)
  | .or es, h => by rw [emittable] at h; exact .or (emittables_sound es h)
  | .not e, h => by rw [emittable] at h; exact .not (emittable_sound e h)
  | .rep e _ _, h => by rw [emittable] at h; exact .rep (emittable_sound e h)
theorem emittables_sound : ∀ es, emittables es = true → ∀ e ∈ es, Emittable e
  | [], _, _, he => by cases he
  | e :: es, h, x, hx => by
    rw [emittables, Bool.and_eq_true] at h
    rcases List.mem_cons.mp hx with hx | hx
    · rw [hx]
      exact emittable_sound e h.1
    · exact emittables_sound es h.2 x hx
end

theorem entryCode_of {x : Str} {ne : Str × Expr} (h : RawStr ne.1) {code : Str} (hc : RustExpr code ne.2)
    (hx : x = c!"r#\"" ++ ne.1 ++ c!"\"# => " ++ code) : EntryCode x ne := by
  intro w hw
  exact ⟨w, c!" ", c!" ", code, hw, by unfold Blank; decide, by unfold Blank; decide, h, hc, by rw [hx]; simp⟩

theorem esc_char_code : RustExpr c!"or!(lit!(\"\\\\r\"), lit!(\"\\\\n\"), lit!(\"\\\\t\"), lit!(\"\\\\\\\\\"), lit!(\"\\\\\\\"\"))" PegRules.e_esc_char := by
  have l1 : ∀ c b v, RustStr b [v] → c!"lit!(\"\\\\" ++ b ++ c!"\")" = c → RustExpr c (.simple (.literal ['\\', v])) := by
    rintro _ b v h rfl
    exact .lit (.bs h)
  have p : ∀ c : Char, c ≠ '"' ∧ c ≠ '\\' ∧ c ≠ '\r' → RustStr [c] [c] := fun c h => .plain h.1 h.2.1 h.2.2 .nil
  exact .or (.cons (w := c!" ") (l1 c!"lit!(\"\\\\r\")" _ _ (p 'r' (by decide)) rfl) (by decide)
    (.cons (w := c!" ") (l1 c!"lit!(\"\\\\n\")" _ _ (p 'n' (by decide)) rfl) (by decide)
    (.cons (w := c!" ") (l1 c!"lit!(\"\\\\t\")" _ _ (p 't' (by decide)) rfl) (by decide)
    (.cons (w := c!" ") (l1 c!"lit!(\"\\\\\\\\\")" _ _ (.bs .nil) rfl) (by decide)
    (.one (l1 c!"lit!(\"\\\\\\\"\")" _ _ (.dq .nil) rfl)) (by simp)) (by simp)) (by simp)) (by simp))

theorem hex_char_code : RustExpr c!"and!(lit!(\"\\\\0x\"), ematch!(chlist r#\"\"#  , from '0', to '9' , from 'A', to 'F' ), ematch!(chlist r#\"\"#  , from '0', to '9' , from 'A', to 'F' ))" PegRules.e_hex_char := by
  have hm : RustExpr c!"ematch!(chlist r#\"\"#  , from '0', to '9' , from 'A', to 'F' )" (.simple (.mtch [] [('0', '9'), ('A', 'F')])) :=
    expr2code_sound (.simple (.mtch [] [('0', '9'), ('A', 'F')])) (emittable_sound _ (by decide))
  have hl : RustExpr c!"lit!(\"\\\\0x\")" (.simple (.literal c!"\\0x")) :=
    .lit (b := c!"\\\\0x") (.bs (.plain (by decide) (by decide) (by decide) (.plain (by decide) (by decide) (by decide) .nil)))
  exact .and (.cons (w := c!" ") hl (by decide) (.cons (w := c!" ") hm (by decide) (.one hm) (by simp)) (by simp))

/-- pairs of code and entry for which the code is the generated one -/
def generated (z : Str × (Str × Expr)) : Bool := decide (z.1 = rule2code z.2.1 z.2.2) && decide (RawStr z.2.1) && emittable z.2.2

theorem generated_code {z} (h : generated z = true) : EntryCode z.1 z.2 := by
  simp only [generated, Bool.and_eq_true, decide_eq_true_eq] at h
  exact entryCode_of h.1.2 (expr2code_sound _ (emittable_sound _ h.2)) h.1.1

/-- source text and model of the table, side by side -/
def tablePairs : List (Str × (Str × Expr)) := PegText.tableSource.zip PegRules.table

theorem tablePairs_code : ∀ z ∈ tablePairs, EntryCode z.1 z.2 := by
  have h8 : EntryCode (PegText.tableSource[8]'(by decide)) (c!"esc_char", PegRules.e_esc_char) := entryCode_of (by decide) esc_char_code rfl
  have h10 : EntryCode (PegText.tableSource[10]'(by decide)) (c!"hex_char", PegRules.e_hex_char) := entryCode_of (by decide) hex_char_code rfl
  have e : tablePairs = tablePairs.take 8 ++ (PegText.tableSource[8]'(by decide), (c!"esc_char", PegRules.e_esc_char)) ::
      ((tablePairs.drop 9).take 1 ++ (PegText.tableSource[10]'(by decide), (c!"hex_char", PegRules.e_hex_char)) :: tablePairs.drop 11) := rfl
  have g : ((tablePairs.take 8).all generated && ((tablePairs.drop 9).take 1).all generated && (tablePairs.drop 11).all generated) = true := by decide +kernel
  simp only [Bool.and_eq_true, List.all_eq_true] at g
  intro z hz
  rw [e, List.mem_append, List.mem_cons, List.mem_append, List.mem_cons] at hz
  rcases hz with h | rfl | h | rfl | h
  · exact generated_code (g.1.1 z h)
  · exact h8
  · exact generated_code (g.1.2 z h)
  · exact h10
  · exact generated_code (g.2 z h)

/-- **C42**: the model of the table is what Rust reads in the source text of src/peg/rules.rs, entry by entry. -/
theorem C42_source_denotes_table : ∀ z ∈ PegText.tableSource.zip PegRules.table, EntryCode z.1 z.2 := tablePairs_code

/-- **C42**: the whole bootstrap. The text of the grammar of PEG is accepted; the code generated from the rules
read from it, in whatever order the hash map lists them, is Rust code for `rules!` that builds (and only builds)
the rules of `parse_peg()`, under the same names. -/
theorem C42_bootstrap : ∃ R, rulesFromPeg PegText.textPeg2code = .ok R ∧ ∀ code, RustFromRules R code →
    ∃ l, (∀ l', RustRules code l' ↔ l' = l) ∧ l.Perm PegRules.table ∧ ∀ n, grammar (.ofList l) n = grammar PegRules.parsePeg n := by
  obtain ⟨R, h1, h2⟩ := C42_table_entries
  refine ⟨R, h1, ?_⟩
  rintro code ⟨order, hp, rfl⟩
  rw [rustFromEntries_layout]
  have e1 : PegText.tableSource = tablePairs.map Prod.fst := by decide +kernel
  have e2 : tablePairs.map Prod.snd = PegRules.table := rfl
  obtain ⟨Z, hZ, he⟩ := perm_of_map ((hp.map fun ne => rule2code ne.1 ne.2).trans h2) tablePairs e1
  rw [he]
  have hr := layOut_entries Z (fun z hz => tablePairs_code z (hZ.mem_iff.mp hz))
  have hl : (Z.map Prod.snd).Perm PegRules.table := e2 ▸ hZ.map Prod.snd
  refine ⟨Z.map Prod.snd, fun l' => ⟨fun h => rustRules_det h hr, ?_⟩, hl, fun n => ?_⟩
  · rintro rfl
    exact hr
  · have hd : (PegRules.table.map Prod.fst).Nodup := by decide +kernel
    have hd' : ((Z.map Prod.snd).map Prod.fst).Nodup := (hl.map _).nodup_iff.mpr hd
    rw [C22_last_definition_wins, lookup_nodup_reverse hd', PegRules.parsePeg, C22_last_definition_wins, lookup_nodup_reverse hd]
    exact lookup_perm hl hd' n

/-- the rules read from the text -/
def selfSet : SetOfRules := (defsRules SetOfRules.empty selfDoc.defs).getD SetOfRules.empty

theorem selfSet_read : rulesFromPeg PegText.textPeg2code = .ok selfSet := by
  have h1 := rulesFromPeg_doc selfDoc_ok (by decide +kernel)
  rw [selfDoc_str] at h1
  have h : (defsRules SetOfRules.empty selfDoc.defs).isSome = true := by decide +kernel
  obtain ⟨R, hR⟩ := Option.isSome_iff_exists.mp h
  rw [h1.1 R hR, selfSet, hR]
  rfl

/-- **C42**: the rules read from the text are themselves not those of `parse_peg()`: since single quotes double
backslashes, they do not know the escapes. The text `main = "\""` is accepted by `parse_peg()` only. -/
theorem C42_not_the_same_rules {R : SetOfRules} (h : rulesFromPeg PegText.textPeg2code = .ok R) :
    (∃ t, parse c!"main = \"\\\"\"\n" PegRules.parsePeg = .ok t) ∧ ∃ e, parse c!"main = \"\\\"\"\n" R = .err e := by
  constructor
  · have hb : (match parseWithDebugF 100 c!"main = \"\\\"\"\n" PegRules.parsePeg false with
        | .ok _ => true
        | _ => false) = true := by decide +kernel
    cases hx : parseWithDebugF 100 c!"main = \"\\\"\"\n" PegRules.parsePeg false with
    | ok t => exact ⟨t, parse_of_fuel hx (by simp)⟩
    | _ => rw [hx] at hb; cases hb
  · rw [selfSet_read] at h
    cases h
    have hb : (match parseWithDebugF 100 c!"main = \"\\\"\"\n" selfSet false with
        | .err _ => true
        | _ => false) = true := by decide +kernel
    cases hx : parseWithDebugF 100 c!"main = \"\\\"\"\n" selfSet false with
    | err e => exact ⟨e, parse_of_fuel hx (by simp)⟩
    | _ => rw [hx] at hb; cases hb

end DP
