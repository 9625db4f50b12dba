/-
Property C51: the texts that the errors, trees and rules are printed as.
-/
import Verif.Proofs.DebugValues
import Verif.Proofs.Decide
import Verif.Props.Complaint
import Verif.Proofs.Lines

namespace DP
open Spec Debug

/-! ### a text determines what is printed -/

/-- **C51**: different trees are printed differently, on one line (`{:?}`) and on many (`{:#?}`). -/
theorem C51_trees (sty : Style) (lay : Layout) (t t' : Node) : fmt sty lay (ofNode t) = fmt sty lay (ofNode t') ↔ t = t' :=
  ⟨fun h => ofNode_inj _ _ (fmt_inj (ok_node t) (ok_node t') h), fun h => h ▸ rfl⟩

/-- **C51**: so are the nodes of flat trees, and flat trees. -/
theorem C51_flat_nodes (sty : Style) (lay : Layout) (t t' : FNode) :
    fmt sty lay (ofFNode t) = fmt sty lay (ofFNode t') ↔ t = t' :=
  ⟨fun h => ofFNode_inj (fmt_inj (ok_fnode t) (ok_fnode t') h), fun h => h ▸ rfl⟩

theorem C51_flat_trees (sty : Style) (lay : Layout) (ts ts' : List FNode) :
    fmt sty lay (vec (ts.map ofFNode)) = fmt sty lay (vec (ts'.map ofFNode)) ↔ ts = ts' := by
  refine ⟨fun h => ?_, fun h => h ▸ rfl⟩
  have ok : ∀ ts : List FNode, Ok (vec (ts.map ofFNode)) := by
    intro ts
    refine ok_vec ?_
    intro d hd
    obtain ⟨t, _, rfl⟩ := List.mem_map.1 hd
    exact ok_fnode t
  exact (List.map_inj_right (fun _ _ h => ofFNode_inj h)).1 (vec_inj (fmt_inj (ok ts) (ok ts') h))

/-- **C51**: so are expressions, and sets of rules (with the rules in the same order). -/
theorem C51_expressions (sty : Style) (lay : Layout) (e e' : Expr) : fmt sty lay (ofExpr e) = fmt sty lay (ofExpr e') ↔ e = e' :=
  ⟨fun h => ofExpr_inj _ _ (fmt_inj (ok_expr e) (ok_expr e') h), fun h => h ▸ rfl⟩

theorem C51_rules (sty : Style) (lay : Layout) (R R' : SetOfRules) :
    fmt sty lay (ofRules R.entries) = fmt sty lay (ofRules R'.entries) ↔ R = R' := by
  refine ⟨fun h => ?_, fun h => h ▸ rfl⟩
  have := ofRules_inj (fmt_inj (ok_rules _) (ok_rules _) h)
  cases R; cases R'; simp_all

/-- **C51**: so are the errors of the parser, in each field; the description is a text. -/
theorem C51_parser_errors (sty : Style) (lay : Layout) (e e' : Error) :
    fmt sty lay (ofError sty e) = fmt sty lay (ofError sty e') ↔
      e.pos = e'.pos ∧ descrText sty e.descr = descrText sty e'.descr ∧ e.lineBefore = e'.lineBefore ∧
        e.lineAfter = e'.lineAfter ∧ e.parsingRules = e'.parsingRules ∧ e.priority = e'.priority :=
  ⟨fun h => ofError_inj.1 (fmt_inj (ok_error sty e) (ok_error sty e') h), fun h => by rw [ofError_inj.2 h]⟩

/-- **C51**: so are the errors of the tree helpers. -/
theorem C51_ast_errors (sty : Style) (lay : Layout) (e e' : AstError) :
    fmt sty lay (ofAstError e) = fmt sty lay (ofAstError e') ↔ e = e' :=
  ⟨fun h => ofAstError_inj (fmt_inj (ok_astError e) (ok_astError e') h), fun h => h ▸ rfl⟩

/-- **C51**: so are the errors of `rules_from_peg`. -/
theorem C51_peg_errors (sty : Style) (lay : Layout) (e e' : PegError) (h : fmt sty lay (ofPegError sty e) = fmt sty lay (ofPegError sty e')) :
    SamePegError sty e e' :=
  ofPegError_inj sty e e' (fmt_inj (ok_pegError sty e) (ok_pegError sty e') h)

/-! ### descriptions -/

/-- **C51**: the texts of the descriptions. -/
theorem C51_descriptions (sty : Style) :
    (∀ l, descrText sty (.literal l) = c!"expected literal: <" ++ l ++ c!">") ∧
    (∀ m, descrText sty (.custom m) = m) ∧
    descrText sty .dot = c!"dot" ∧
    (∀ cs rs, descrText sty (.mtch cs rs) = c!"match. expected " ++ cs ++ c!" " ++ debug sty (ofRanges rs)) ∧
    descrText sty .eof = c!"expected EOF" ∧
    (∀ n, descrText sty (.missingRule n) = c!"Missing rule: " ++ n) ∧
    descrText sty .orLogic = c!"LOGIC ERROR!!! checked all options in or with ¿NO? errors" ∧
    descrText sty .not = c!"not" ∧
    descrText sty .notConsumed = c!"not consumed full input" :=
  ⟨fun _ => rfl, fun _ => rfl, rfl, fun _ _ => rfl, rfl, fun _ => rfl, rfl, rfl, rfl⟩

/-- **C51**: the texts of the ranges in them. -/
theorem C51_ranges (sty : Style) :
    debug sty (ofRanges []) = c!"[]" ∧
    ∀ r rs, debug sty (ofRanges (r :: rs)) =
      c!"[('" ++ escChar sty '\'' r.1 ++ c!"', '" ++ escChar sty '\'' r.2 ++ c!"')" ++
        (rs.map fun r => c!", ('" ++ escChar sty '\'' r.1 ++ c!"', '" ++ escChar sty '\'' r.2 ++ c!"')").flatten ++ c!"]" := by
  refine ⟨rfl, ?_⟩
  intro r rs
  have key : fmtEntries sty none ((rs.map fun r => call [] [.chr r.1, .chr r.2]).map .plain) =
      (rs.map fun r => c!", ('" ++ escChar sty '\'' r.1 ++ c!"', '" ++ escChar sty '\'' r.2 ++ c!"')").flatten := by
    induction rs with
    | nil => rfl
    | cons r rs ih =>
      rw [List.map_cons, List.map_cons, fmtEntries, ih]
      simp [fmtEntry, fmt, fmtEntries, call, opening, separator, closing, newline]
  simp only [debug, ofRanges, vec, List.map_cons, fmt, key]
  simp [fmtEntry, fmt, fmtEntries, call, opening, separator, closing, newline]

/-- **C51**: the text of a description determines it, unless it was written by the author of the grammar. -/
theorem C51_descriptions_differ (sty : Style) {d d' : Descr} (hd : ∀ m, d ≠ .custom m) (hd' : ∀ m, d' ≠ .custom m) :
    descrText sty d = descrText sty d' ↔ d = d' := by
  have key : ∀ {d : Descr}, (∀ m, d ≠ .custom m) → ¬ Custom d := by
    intro d h hc
    cases d <;> first | exact hc | exact h _ rfl
  exact ⟨descrText_inj (key hd) (key hd'), fun h => h ▸ rfl⟩

mutual
/-- no `error(...)` with a text like the description of a missing rule -/
def candid : Expr → Bool
  | .simple (.error m) => !List.isPrefixOf c!"Missing rule: " m
  | .simple _ => true
  | .and es => candids es
  | .or es => candids es
  | .not e => candid e
  | .rep e _ _ => candid e
  | .ruleName _ => true
def candids : List Expr → Bool
  | [] => true
  | e :: es => candid e && candids es
end

mutual
theorem candid_effective : ∀ e, candid (effective e) = candid e
  | .simple _ => rfl
  | .and es => by rw [effective, candid, candid, candids_effectives es]
  | .or es => by rw [effective, candid, candid, candids_effectives es]
  | .not e => by rw [effective, candid, candid, candid_effective e]
  | .rep e mn none => by rw [effective, candid, candid, candid_effective e]
  | .rep e mn (some 0) => by rw [effective, candid, candid, candid_effective e]
  | .rep e mn (some (m + 1)) => by rw [effective, candid, candid, candid_effective e]
  | .ruleName _ => rfl
theorem candids_effectives : ∀ es, candids (effectives es) = candids es
  | [] => rfl
  | e :: es => by rw [effectives, candids, candids, candid_effective e, candids_effectives es]
end

/-- the priority that comes with a description -/
def Frank (d : Descr) (p : Prio) : Prop :=
  match d with
  | .custom m => p = .critical ∧ List.isPrefixOf c!"Missing rule: " m = false
  | .missingRule _ => p = .critical
  | _ => p = .normal

theorem frank_reports {G tr e j s o} (hG : ∀ n e, G n = some e → candid e = true) (h : Reports G tr e j s o) :
    candid e = true → (∀ f, j.kept = some f → Frank f.why f.prio) →
      match o with
      | .ok _ _ j' => ∀ f, j'.kept = some f → Frank f.why f.prio
      | .bad f => Frank f.why f.prio := by
  have ws : ∀ {f g : Fault}, Frank f.why f.prio → Frank g.why g.prio → Frank (worse f g).why (worse f g).prio := by
    intro f g hf hg; unfold worse; split <;> assumption
  induction h with
  | error m s j => intro h _; simp only [candid, Bool.not_eq_true'] at h; exact ⟨rfl, h⟩
  | lit_ok | class_ok | dot_ok | eof_ok | and_nil | rep_full => intro _ hj; exact hj
  | lit_differs | lit_short | class_differs | class_end | dot_end | eof_differs | or_nil | call_missing =>
    intro _ _; rfl
  | not_ok _ ih => intro _ _; rfl
  | not_bad _ ih => intro _ hj; exact hj
  | and_ok _ _ ih1 ih2 =>
    intro h hj
    simp only [candid, candids, Bool.and_eq_true] at h
    exact ih2 (by simpa [candid] using h.2) (ih1 h.1 hj)
  | and_bad _ ih => intro h hj; simp only [candid, candids, Bool.and_eq_true] at h; exact ih h.1 hj
  | and_tail_bad _ _ ih1 ih2 =>
    intro h hj
    simp only [candid, candids, Bool.and_eq_true] at h
    exact ih2 (by simpa [candid] using h.2) (ih1 h.1 hj)
  | or_ok _ ih => intro h hj; simp only [candid, candids, Bool.and_eq_true] at h; exact ih h.1 hj
  | or_crit _ _ ih => intro h hj; simp only [candid, candids, Bool.and_eq_true] at h; exact ih h.1 hj
  | or_last _ _ ih => intro h hj; simp only [candid, candids, Bool.and_eq_true] at h; exact ih h.1 hj
  | or_next_ok _ _ _ ih1 ih2 =>
    intro h hj
    simp only [candid, candids, Bool.and_eq_true] at h
    exact ih2 (by simpa [candid, candids] using h.2) hj
  | or_next_bad _ _ _ ih1 ih2 =>
    intro h hj
    simp only [candid, candids, Bool.and_eq_true] at h
    exact ws (ih1 h.1 hj) (ih2 (by simpa [candid, candids] using h.2) hj)
  | rep_more _ _ _ ih1 ih2 => intro h hj; exact ih2 (by simpa [candid] using h) (ih1 (by simpa [candid] using h) hj)
  | rep_stop _ _ _ ih =>
    intro h hj f hf
    cases hf
    exact ih (by simpa [candid] using h) hj
  | rep_crit _ _ _ ih => intro h hj; exact ih (by simpa [candid] using h) hj
  | rep_few _ _ _ ih => intro h hj; exact ih (by simpa [candid] using h) hj
  | rep_more_bad _ _ _ ih1 ih2 => intro h hj; exact ih2 (by simpa [candid] using h) (ih1 (by simpa [candid] using h) hj)
  | call_ok hn _ ih => intro _ hj; exact ih (hG _ _ hn) hj
  | call_bad hn _ ih => intro _ hj; exact ih (hG _ _ hn) hj

theorem parse_frank {R : SetOfRules} (hR : ∀ n e, R.get n = some e → candid e = true) {s : Str} {e : Error}
    (h : parse s R = .err e) : Frank e.descr e.priority := by
  obtain ⟨_, f, h1, h2⟩ := (C47_parse_err_iff s R e).1 h
  have hG : ∀ n x, denotes R n = some x → candid x = true := by
    intro n x hx
    obtain ⟨y, h3, rfl⟩ := Option.map_eq_some_iff.1 hx
    rw [candid_effective]
    exact hR n y h3
  rw [h2.descr, h2.priority]
  cases h1 with
  | failed h => exact frank_reports hG h rfl (by intro f hf; cases hf)
  | kept h _ hk => exact frank_reports hG h rfl (by intro f hf; cases hf) f hk
  | unread h _ _ => rfl

theorem frank_inj {sty : Style} {d d' : Descr} {p : Prio} (h : Frank d p) (h' : Frank d' p) (ht : descrText sty d = descrText sty d') :
    d = d' := by
  by_cases hc : ∃ m, d = .custom m
  · obtain ⟨m, rfl⟩ := hc
    obtain ⟨rfl, hm⟩ := h
    cases d' with
    | custom m' => exact congrArg Descr.custom ht
    | missingRule n =>
      have ht : m = c!"Missing rule: " ++ n := ht
      rw [ht, List.isPrefixOf_iff_prefix.2 (List.prefix_append _ _)] at hm
      cases hm
    | _ => cases h'
  by_cases hc' : ∃ m, d' = .custom m
  · obtain ⟨m, rfl⟩ := hc'
    obtain ⟨rfl, hm⟩ := h'
    cases d with
    | custom m' => exact congrArg Descr.custom ht
    | missingRule n =>
      have ht : c!"Missing rule: " ++ n = m := ht
      rw [← ht, List.isPrefixOf_iff_prefix.2 (List.prefix_append _ _)] at hm
      cases hm
    | _ => cases h
  exact (C51_descriptions_differ sty (fun m hm => hc ⟨m, hm⟩) (fun m hm => hc' ⟨m, hm⟩)).1 ht

/-- **C51**: the errors of `parse` are told apart by their texts, unless the author of a grammar writes
`Missing rule: ...` in an `error(...)`. -/
theorem C51_errors_identified {R R' : SetOfRules} (hR : ∀ n e, R.get n = some e → candid e = true)
    (hR' : ∀ n e, R'.get n = some e → candid e = true) {s s' : Str} {e e' : Error} (h : parse s R = .err e) (h' : parse s' R' = .err e')
    (sty : Style) (lay : Layout) : fmt sty lay (ofError sty e) = fmt sty lay (ofError sty e') ↔ e = e' := by
  refine ⟨fun hf => ?_, fun h => h ▸ rfl⟩
  obtain ⟨h1, h2, h3, h4, h5, h6⟩ := (C51_parser_errors sty lay e e').1 hf
  have := frank_inj (parse_frank hR h) (h6 ▸ parse_frank hR' h') h2
  cases e; cases e'; simp_all

theorem peg_candid : ∀ n e, PegRules.parsePeg.get n = some e → candid e = true := by
  have h : PegRules.parsePeg.entries.all (fun ne => candid ne.2) = true := by decide +kernel
  intro n e hne
  have key : ∀ es : List (Str × Expr), es.lookup n = some e → ∃ m, (m, e) ∈ es := by
    intro es
    induction es with
    | nil => intro h; cases h
    | cons x es ih =>
      obtain ⟨k, y⟩ := x
      intro h
      rw [List.lookup_cons] at h
      split at h
      · cases h; exact ⟨k, by simp⟩
      · obtain ⟨m, hm⟩ := ih h
        exact ⟨m, by simp [hm]⟩
  obtain ⟨m, hm⟩ := key _ hne
  exact List.all_eq_true.mp h _ hm

/-! ### `{}` of the errors of `rules_from_peg` -/

/-- **C51**: different refusals of `rules_from_peg` are displayed differently. -/
theorem C51_display (sty : Style) {s s' : Str} {e e' : PegError} (h : rulesFromPeg s = .err e) (h' : rulesFromPeg s' = .err e') :
    displayPeg sty e = displayPeg sty e' ↔ e = e' := by
  refine ⟨fun hd => ?_, fun h => h ▸ rfl⟩
  have parserText : ∀ p, displayPeg sty (.parser p) = (([] : List Str).map fun d => d ++ c!" > ").flatten ++
      (c!"Parser(" ++ (fmt sty none (ofError sty p) ++ c!")")) := by
    intro p; simp [displayPeg, Peg.display]
  have complaintText : ∀ p : Syntax.Complaint, displayPeg sty p.error = (p.path.map fun d => d ++ c!" > ").flatten ++
      (c!"AST(" ++ (fmt sty none (ofAstError ⟨p.cause, none⟩) ++ c!")")) := by
    intro p; rw [displayPeg, C48_display]; simp
  have ga : ∀ t w r, goodWord w = true → c!"AST(" ++ t ≠ w ++ r := fun t w r hw => not_good (by decide) hw
  have gp : ∀ t w r, goodWord w = true → c!"Parser(" ++ t ≠ w ++ r := fun t w r hw => not_good (by decide) hw
  rcases (C48_errors s e).1 h with ⟨p, rfl, _⟩ | ⟨_, d, _, _, p, hp, rfl⟩ <;>
  rcases (C48_errors s' e').1 h' with ⟨p', rfl, _⟩ | ⟨_, d', _, _, p', hp', rfl⟩
  · rw [parserText, parserText] at hd
    have h1 := (path_inj gp gp (by simp) (by simp) hd).2
    have h2 := List.append_cancel_right (List.append_cancel_left h1)
    rw [(C51_errors_identified peg_candid peg_candid ((C39_syntax_errors s p).1 h) ((C39_syntax_errors s' p').1 h') sty none).1 h2]
  · rw [parserText, complaintText] at hd
    have h1 := (path_inj gp ga (by simp) (good_doc d' p' hp') hd).2
    simp at h1
  · rw [parserText, complaintText] at hd
    have h1 := (path_inj ga gp (good_doc d p hp) (by simp) hd).2
    simp at h1
  · rw [complaintText, complaintText] at hd
    obtain ⟨h0, h1⟩ := path_inj ga ga (good_doc d p hp) (good_doc d' p' hp') hd
    have h2 := List.append_cancel_right (List.append_cancel_left h1)
    have h3 := (C51_ast_errors sty none _ _).1 h2
    cases p; cases p'; simp_all

/-! ### the texts themselves -/

/-- **C51**: a quoted text is a string literal of Rust for the text. -/
theorem C51_quoted (sty : Style) (lay : Layout) (s : Str) :
    ∃ b, fmt sty lay (.str s) = c!"\"" ++ b ++ c!"\"" ∧ RustStr b s :=
  ⟨_, rfl, rustStr_escStr sty s⟩

/-- **C51**: between the quotes each character is shown as documented. -/
theorem C51_quoted_exactly (sty : Style) (lay : Layout) (s : Str) :
    ∃ b, fmt sty lay (.str s) = c!"\"" ++ b ++ c!"\"" ∧ Lines.Escapes sty s b :=
  ⟨_, rfl, escapes_escStr sty s⟩

/-- **C51**: a character is shown as in a text, but for the quotes. -/
theorem C51_characters (sty : Style) (lay : Layout) :
    (∀ c, c ≠ '\'' → c ≠ '"' → ∃ b, fmt sty lay (.chr c) = c!"'" ++ b ++ c!"'" ∧ Lines.Escape sty c b) ∧
    fmt sty lay (.chr '\'') = c!"'\\''" ∧
    fmt sty lay (.chr '"') = if sty.bothQuotes then c!"'\\\"'" else c!"'\"'" := by
  refine ⟨fun c h1 h2 => ⟨_, rfl, ?_⟩, ?_, ?_⟩
  · have := escape_escChar sty c
    rwa [show escChar sty '"' c = escChar sty '\'' c from by simp [escChar, h1, h2]] at this
  · simp [fmt, escChar]
  · cases h : sty.bothQuotes <;> simp [fmt, escChar, h, shown]

/-- a bell is shown by its code -/
example (sty : Style) : Lines.Escapes sty ['\x07', 'a'] c!"\\u{7}a" :=
  .cons (e := c!"\\u{7}") (.control _ (by decide) (by decide) (by decide) (by decide))
    (.cons (e := c!"a") (.printable _ (by decide) (by decide) (by decide) (by decide) (by decide)) .nil)

/-- **C51**: printable ASCII without quotes and backslashes is quoted as it is. -/
theorem C51_quoted_plain (sty : Style) (lay : Layout) (s : Str)
    (h : ∀ c ∈ s, 32 ≤ c.toNat ∧ c.toNat < 127 ∧ c ≠ '"' ∧ c ≠ '\'' ∧ c ≠ '\\') :
    fmt sty lay (.str s) = c!"\"" ++ s ++ c!"\"" := by
  have : escStr sty '"' s = s := by
    induction s with
    | nil => rfl
    | cons c s ih =>
      rw [escStr, ih (fun d hd => h d (by simp [hd]))]
      obtain ⟨h1, h2, h3, h4, h5⟩ := h c (by simp)
      have ht : c ≠ '\t' := by rintro rfl; revert h1; decide
      have hr : c ≠ '\r' := by rintro rfl; revert h1; decide
      have hn : c ≠ '\n' := by rintro rfl; revert h1; decide
      have h0 : c.toNat ≠ 0 := by omega
      have hs : shown sty c = true := by
        unfold shown
        rw [if_pos (by omega)]
        simp only [Bool.and_eq_true, decide_eq_true_eq]
        omega
      simp [escChar, ht, hr, hn, h5, h3, h4, h0, hs]
  rw [fmt, this]

/-- **C51**: the line of a tree. -/
theorem C51_tree_text (sty : Style) :
    debug sty (ofNode .eof) = c!"EOF" ∧
    (∀ v, debug sty (ofNode (.val v)) = c!"Val(" ++ debug sty (.str v) ++ c!")") ∧
    (∀ n, debug sty (ofNode (.rule n [])) = c!"Rule((" ++ debug sty (.str n) ++ c!", []))") ∧
    (∀ n t ts, debug sty (ofNode (.rule n (t :: ts))) =
      c!"Rule((" ++ debug sty (.str n) ++ c!", [" ++ debug sty (ofNode t) ++
        (ts.map fun t => c!", " ++ debug sty (ofNode t)).flatten ++ c!"]))") := by
  refine ⟨by simp [ofNode, call, debug, fmt], ?_, ?_, ?_⟩
  · intro v
    simp [ofNode, call, debug, fmt, fmtEntry, fmtEntries, opening, closing, newline]
  · intro n
    simp [ofNode, ofNodes, call, vec, debug, fmt, fmtEntry, fmtEntries, opening, closing, separator, newline]
  · intro n t ts
    have key : fmtEntries sty none ((ofNodes ts).map .plain) = (ts.map fun t => c!", " ++ debug sty (ofNode t)).flatten := by
      induction ts with
      | nil => rfl
      | cons t ts ih =>
        rw [ofNodes, List.map_cons, fmtEntries, ih]
        simp [debug, fmtEntry, separator]
    simp only [debug] at key ⊢
    simp [ofNode, ofNodes, call, vec, fmt, fmtEntry, fmtEntries, key, opening, closing, separator, newline]

/-- **C51**: the line of an error of the parser. -/
theorem C51_error_text (sty : Style) (e : Error) :
    debug sty (ofError sty e) =
      c!"Error { pos: Possition { n: " ++ Nat.toDigits 10 e.pos.n ++ c!", row: " ++ Nat.toDigits 10 e.pos.row ++ c!", col: " ++
        Nat.toDigits 10 e.pos.col ++ c!", start_line: " ++ Nat.toDigits 10 e.pos.startLine ++ c!" }, descr: " ++
        debug sty (.str (descrText sty e.descr)) ++ c!", line_before: " ++ debug sty (.str e.lineBefore) ++ c!", line_after: " ++
        debug sty (.str e.lineAfter) ++ c!", parsing_rules: " ++ debug sty (vec (e.parsingRules.map .str)) ++ c!", priority: " ++
        (match e.priority with
          | .normal => c!"Normal"
          | .critical => c!"Critical") ++ c!" }" := by
  cases h : e.priority <;>
  simp [ofError, ofPos, ofPrio, call, struct, debug, fmt, fmtEntry, fmtEntries, opening, closing, separator, newline, h]

/-- **C51**: the line of an error of the tree helpers, and of `rules_from_peg`. -/
theorem C51_other_texts (sty : Style) :
    (∀ d, debug sty (ofAstError ⟨d, none⟩) = c!"Error(" ++ debug sty (.str d) ++ c!", None)") ∧
    (∀ d c, debug sty (ofAstError ⟨d, some c⟩) = c!"Error(" ++ debug sty (.str d) ++ c!", Some(" ++ debug sty (.str c) ++ c!"))") ∧
    (∀ p, debug sty (ofPegError sty (.parser p)) = c!"Parser(" ++ debug sty (ofError sty p) ++ c!")") ∧
    (∀ a, debug sty (ofPegError sty (.ast a)) = c!"Ast(" ++ debug sty (ofAstError a) ++ c!")") ∧
    (∀ d, debug sty (ofPegError sty (.peg d none)) = c!"Peg((" ++ debug sty (.str d) ++ c!", None))") ∧
    (∀ d e, debug sty (ofPegError sty (.peg d (some e))) =
      c!"Peg((" ++ debug sty (.str d) ++ c!", Some(" ++ debug sty (ofPegError sty e) ++ c!")))") := by
  refine ⟨?_, ?_, ?_, ?_, ?_, ?_⟩ <;> intros <;>
  simp [ofAstError, ofPegError, opt, call, debug, fmt, fmtEntry, fmtEntries, opening, closing, separator, newline]

/-- **C51**: the line of a node of a flattened tree. -/
theorem C51_flat_text (sty : Style) :
    debug sty (ofFNode .eof) = c!"EOF" ∧
    (∀ v, debug sty (ofFNode (.val v)) = c!"Val(" ++ debug sty (.str v) ++ c!")") ∧
    (∀ n, debug sty (ofFNode (.beginRule n)) = c!"BeginRule(" ++ debug sty (.str n) ++ c!")") ∧
    (∀ n, debug sty (ofFNode (.endRule n)) = c!"EndRule(" ++ debug sty (.str n) ++ c!")") := by
  refine ⟨by simp [ofFNode, call, debug, fmt], ?_, ?_, ?_⟩ <;> intro v <;>
  simp [ofFNode, call, debug, fmt, fmtEntry, fmtEntries, opening, closing, newline]

theorem fmtEntries_line (sty : Style) (ds : List Dbg) :
    fmtEntries sty none (ds.map .plain) = (ds.map fun d => c!", " ++ debug sty d).flatten := by
  induction ds with
  | nil => rfl
  | cons d ds ih =>
    rw [List.map_cons, fmtEntries, ih]
    simp [debug, fmtEntry, separator]

/-- **C51**: the line of a list. -/
theorem C51_list_text (sty : Style) : debug sty (vec []) = c!"[]" ∧
    ∀ d ds, debug sty (vec (d :: ds)) = c!"[" ++ debug sty d ++ (ds.map fun d => c!", " ++ debug sty d).flatten ++ c!"]" := by
  refine ⟨rfl, fun d ds => ?_⟩
  have := fmtEntries_line sty ds
  simp only [debug] at this ⊢
  simp [vec, fmt, fmtEntry, this, opening, closing, newline]

theorem ofExprs_map : ∀ es : List Expr, ofExprs es = es.map ofExpr
  | [] => rfl
  | e :: es => by rw [ofExprs, ofExprs_map es]; rfl

/-- **C51**: the line of an expression. -/
theorem C51_expression_text (sty : Style) :
    (∀ l, debug sty (ofExpr (.simple (.literal l))) = c!"Simple(Literal(" ++ debug sty (.str l) ++ c!"))") ∧
    (∀ l, debug sty (ofExpr (.simple (.error l))) = c!"Simple(Error(" ++ debug sty (.str l) ++ c!"))") ∧
    debug sty (ofExpr (.simple .dot)) = c!"Simple(Dot)" ∧
    debug sty (ofExpr (.simple .eof)) = c!"Simple(EOF)" ∧
    (∀ cs rs, debug sty (ofExpr (.simple (.mtch cs rs))) = c!"Simple(Match(MatchRules(" ++ debug sty (.str cs) ++ c!", " ++
      debug sty (ofRanges rs) ++ c!")))") ∧
    (∀ es, debug sty (ofExpr (.and es)) = c!"And(MultiExpr(" ++ debug sty (vec (es.map ofExpr)) ++ c!"))") ∧
    (∀ es, debug sty (ofExpr (.or es)) = c!"Or(MultiExpr(" ++ debug sty (vec (es.map ofExpr)) ++ c!"))") ∧
    (∀ e, debug sty (ofExpr (.not e)) = c!"Not(" ++ debug sty (ofExpr e) ++ c!")") ∧
    (∀ e mn, debug sty (ofExpr (.rep e mn none)) = c!"Repeat(RepInfo { expression: " ++ debug sty (ofExpr e) ++
      c!", min: NRep(" ++ Nat.toDigits 10 mn ++ c!"), max: None })") ∧
    (∀ e mn mx, debug sty (ofExpr (.rep e mn (some mx))) = c!"Repeat(RepInfo { expression: " ++ debug sty (ofExpr e) ++
      c!", min: NRep(" ++ Nat.toDigits 10 mn ++ c!"), max: Some(NRep(" ++ Nat.toDigits 10 mx ++ c!")) })") ∧
    (∀ n, debug sty (ofExpr (.ruleName n)) = c!"RuleName(" ++ debug sty (.str n) ++ c!")") := by
  refine ⟨?_, ?_, ?_, ?_, ?_, ?_, ?_, ?_, ?_, ?_, ?_⟩ <;> intros <;>
  simp [ofExpr, ofAtom, ofExprs_map, ofNRep, opt, struct, call, debug, fmt, fmtEntry, fmtEntries, opening, closing, separator, newline]

/-- **C51**: the line of a set of rules, with the entries in the order in which the hash map yields them. -/
theorem C51_rules_text (sty : Style) : debug sty (ofRules []) = c!"SetOfRules({})" ∧
    ∀ n e l, debug sty (ofRules ((n, e) :: l)) = c!"SetOfRules({" ++ debug sty (.str n) ++ c!": " ++ debug sty (ofExpr e) ++
      (l.map fun r => c!", " ++ debug sty (.str r.1) ++ c!": " ++ debug sty (ofExpr r.2)).flatten ++ c!"})" := by
  refine ⟨by simp [ofRules, call, debug, fmt, fmtEntry, fmtEntries, opening, closing, newline], fun n e l => ?_⟩
  have key : fmtEntries sty none (l.map fun r => .pair (.str r.1) (ofExpr r.2)) =
      (l.map fun r => c!", " ++ debug sty (.str r.1) ++ c!": " ++ debug sty (ofExpr r.2)).flatten := by
    induction l with
    | nil => rfl
    | cons r l ih =>
      rw [List.map_cons, fmtEntries, ih]
      simp [debug, fmtEntry, separator]
  simp only [debug] at key ⊢
  simp [ofRules, call, fmt, fmtEntry, fmtEntries, key, opening, closing, newline]

/-- **C51**: `{:#?}` has one line for each entry, four spaces deeper than the lines around it. -/
theorem C51_pretty (sty : Style) (d : Dbg) : pretty sty d = Lines.text (Lines.lines sty d) := by
  rw [pretty, (fmt_lines sty d 0).1, textAt_zero]

/-- `Some(NRep(2))` -/
example (sty : Style) (h : sty.comma = true) : Lines.lines sty (opt (some (ofNRep 2))) =
    [c!"Some(", c!"    NRep(", c!"        2,", c!"    ),", c!")"] := by
  simp [opt, call, ofNRep, Lines.lines, Lines.linesOfEntries, Lines.linesOfEntry, h, Lines.deeper, Lines.after, Lines.openText,
    Lines.closeText, debug, fmt, show Nat.toDigits 10 2 = c!"2" from by decide]

/-! ### examples -/

/-- a style: current versions -/
def exStyle : Style := ⟨fun _ => true, true, false, true⟩
/-- a style: the versions of 2018 -/
def exOldStyle : Style := ⟨fun _ => true, false, true, false⟩

/-- the first tree of the README (README.md:158-207) -/
def exReadme : Node := .rule c!"main" [.rule c!"letter" [.val c!"a"], .rule c!"letter_or_num" [.rule c!"number" [.val c!"2"]],
  .rule c!"letter_or_num" [.rule c!"letter" [.val c!"Z"]]]

example : debug exStyle (ofNode exReadme) =
    c!"Rule((\"main\", [Rule((\"letter\", [Val(\"a\")])), Rule((\"letter_or_num\", [Rule((\"number\", [Val(\"2\")]))])), Rule((\"letter_or_num\", [Rule((\"letter\", [Val(\"Z\")]))]))]))" := by
  decide +kernel

example : pretty exOldStyle (ofNode exReadme) = c!"Rule(
    (
        \"main\",
        [
            Rule(
                (
                    \"letter\",
                    [
                        Val(
                            \"a\"
                        )
                    ]
                )
            ),
            Rule(
                (
                    \"letter_or_num\",
                    [
                        Rule(
                            (
                                \"number\",
                                [
                                    Val(
                                        \"2\"
                                    )
                                ]
                            )
                        )
                    ]
                )
            ),
            Rule(
                (
                    \"letter_or_num\",
                    [
                        Rule(
                            (
                                \"letter\",
                                [
                                    Val(
                                        \"Z\"
                                    )
                                ]
                            )
                        )
                    ]
                )
            )
        ]
    )
)" := by
  decide +kernel

example : parse c!"ab" ⟨[(c!"main", .simple (.mtch c!"x'" [('0', '9')]))]⟩ =
      .err ⟨⟨1, 0, 1, 0⟩, .mtch c!"x'" [('0', '9')], c!"a", c!"b", [], .normal⟩ ∧
    debug exStyle (ofError exStyle ⟨⟨1, 0, 1, 0⟩, .mtch c!"x'" [('0', '9')], c!"a", c!"b", [], .normal⟩) =
      c!"Error { pos: Possition { n: 1, row: 0, col: 1, start_line: 0 }, descr: \"match. expected x' [('0', '9')]\", line_before: \"a\", line_after: \"b\", parsing_rules: [], priority: Normal }" :=
  ⟨parse_of_fuel (f := 20) (by decide +kernel) (by simp), by decide +kernel⟩

example : displayPeg exStyle (Syntax.Complaint.error ⟨[c!"consuming main", c!"consuming grammar"], c!"expected Val node"⟩) =
    c!"consuming main > consuming grammar > AST(Error(\"expected Val node\", None))" := by
  decide +kernel

/-- why the authors' texts are restricted: a rule that is missing, and a text that says so -/
example : parse c!"x" ⟨[(c!"main", .and [.simple (.literal c!"x"), .ruleName c!"y"])]⟩ =
      .err ⟨⟨1, 0, 1, 0⟩, .missingRule c!"y", c!"x", [], [], .critical⟩ ∧
    parse c!"x" ⟨[(c!"main", .and [.simple (.literal c!"x"), .simple (.error c!"Missing rule: y")])]⟩ =
      .err ⟨⟨1, 0, 1, 0⟩, .custom c!"Missing rule: y", c!"x", [], [], .critical⟩ ∧
    debug exStyle (ofError exStyle ⟨⟨1, 0, 1, 0⟩, .missingRule c!"y", c!"x", [], [], .critical⟩) =
      debug exStyle (ofError exStyle ⟨⟨1, 0, 1, 0⟩, .custom c!"Missing rule: y", c!"x", [], [], .critical⟩) :=
  ⟨parse_of_fuel (f := 20) (by decide +kernel) (by simp), parse_of_fuel (f := 20) (by decide +kernel) (by simp), rfl⟩

end DP
