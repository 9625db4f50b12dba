/-
Properties C33-C35, C37, C38, C43, C45, C46: what `rules_from_peg` makes of every text.
-/
import Verif.Spec.PegDefs
import Verif.Proofs.SynInv
import Verif.Proofs.SynPrint
import Verif.Proofs.SynEol

namespace DP
open Spec Spec.Syntax

/-! ### C45, C46 -/

/-- **C45**: the texts of documents (and no other ASCII texts) are accepted by the built-in grammar. -/
theorem C45_accepted_texts {s : Str} (ha : Ascii s) :
    (∃ t, parse s PegRules.parsePeg = .ok t) ↔ ∃ d : Doc, d.OK ∧ d.str = s := accepts_iff ha

/-- **C45**: `rules_from_peg` succeeds with the rules `m` exactly on the ASCII texts that are the text of a
document with the meaning `m`. -/
theorem C45_meaning (s : Str) (m : Meaning) :
    (∃ R, rulesFromPeg s = .ok R ∧ grammar R = m) ↔ Ascii s ∧ ∃ d : Doc, d.OK ∧ d.str = s ∧ d.denote = some m := by
  constructor
  · rintro ⟨R, h, rfl⟩
    exact rulesFromPeg_inv h
  · rintro ⟨ha, d, h, rfl, hm⟩
    obtain ⟨R, h1, h2, _⟩ := (rulesFromPeg_denote h ha).1 m hm
    exact ⟨R, h1, h2⟩

/-- **C45**: documents without meaning give an error (not a panic). -/
theorem C45_no_meaning {d : Doc} (h : d.OK) (ha : Ascii d.str) (hn : d.denote = none) : ∃ e, rulesFromPeg d.str = .err e :=
  (rulesFromPeg_denote h ha).2 hn

/-- **C46**: the concrete syntax is unambiguous: documents with the same ASCII text have the same meaning. -/
theorem C46_unambiguous {d d' : Doc} (h : d.OK) (h' : d'.OK) (ha : Ascii d.str) (e : d.str = d'.str) :
    d.denote = d'.denote := by
  have h1 := rulesFromPeg_denote h ha
  have h2 := rulesFromPeg_denote h' (e ▸ ha)
  rw [← e] at h2
  cases hd : d.denote with
  | none =>
    obtain ⟨x, hx⟩ := h1.2 hd
    cases hd' : d'.denote with
    | none => rfl
    | some m =>
      obtain ⟨R, hR, _⟩ := h2.1 m hd'
      rw [hx] at hR
      cases hR
  | some m =>
    obtain ⟨R, hR, rfl, _⟩ := h1.1 m hd
    cases hd' : d'.denote with
    | none =>
      obtain ⟨x, hx⟩ := h2.2 hd'
      rw [hx] at hR
      cases hR
    | some m' =>
      obtain ⟨R', hR', rfl, _⟩ := h2.1 m' hd'
      rw [hR] at hR'
      cases hR'
      rfl

/-! ### C33 -/

/-- **C33**: rules in the PEG notation, printed one per line with parentheses only where precedence demands
them, are read back exactly. (If a name occurs more than once the last definition counts, as in `rules!`.) -/
theorem C33_round_trip {rs : List (Str × Expr)} (hne : rs ≠ []) (h : ∀ r ∈ rs, ValidName r.1 ∧ PegExpr r.2) :
    rulesFromPeg (printRules rs) = .ok (.ofList rs) := printRules_read hne h

/-- a grammar with every construct, in all relevant nestings -/
def exPrint : List (Str × Expr) :=
  [(c!"main", .and [.rep (.or [.simple (.literal c!"a\n"), .and [.ruleName c!"b", .not (.not (.simple .dot))]]) 1 none,
      .rep (.simple (.mtch c!"ab" [('0', '9')])) 0 none, .or [.simple .dot, .simple (.error c!"x")]]),
   (c!"b", .or [.and [.ruleName c!"c", .ruleName c!"d"], .rep (.rep (.ruleName c!"d") 0 none) 0 (some 1)])]

example : printRules exPrint = c!"main = (\"a\\n\" / b !(!.))+ [ab0-9]* (. / error(\"x\"))\nb = c d / (d*)?\n" := by decide

theorem exPrint_name {c : Char} (h : WordChar c) : ValidName [c] := ⟨[], [c], [], Or.inl rfl, ⟨c, [], rfl, h, by simp⟩, .nil, rfl⟩

theorem exPrint_ok : ∀ r ∈ exPrint, ValidName r.1 ∧ PegExpr r.2 := by
  intro r hr
  simp only [exPrint, List.mem_cons, List.not_mem_nil, or_false] at hr
  rcases hr with rfl | rfl
  · refine ⟨⟨[], c!"main", [], Or.inl rfl, ⟨'m', c!"ain", rfl, by decide, by decide⟩, .nil, rfl⟩, .and (by decide) ?_⟩
    simp only [List.mem_cons, List.not_mem_nil, or_false, forall_eq_or_imp, forall_eq]
    refine ⟨.plus (.or (by decide) ?_), .star (.cls ⟨by decide, by decide, by decide, by decide, by decide⟩), .or (by decide) ?_⟩
    · simp only [List.mem_cons, List.not_mem_nil, or_false, forall_eq_or_imp, forall_eq]
      refine ⟨.literal (by unfold ValidLiteral; decide), .and (by decide) ?_⟩
      simp only [List.mem_cons, List.not_mem_nil, or_false, forall_eq_or_imp, forall_eq]
      exact ⟨.ref (exPrint_name (by decide)), .not (.not .dot)⟩
    · simp only [List.mem_cons, List.not_mem_nil, or_false, forall_eq_or_imp, forall_eq]
      exact ⟨.dot, .error (by unfold ValidLiteral; decide)⟩
  · refine ⟨exPrint_name (by decide), .or (by decide) ?_⟩
    simp only [List.mem_cons, List.not_mem_nil, or_false, forall_eq_or_imp, forall_eq]
    refine ⟨.and (by decide) ?_, .opt (.star (.ref (exPrint_name (by decide))))⟩
    simp only [List.mem_cons, List.not_mem_nil, or_false, forall_eq_or_imp, forall_eq]
    exact ⟨.ref (exPrint_name (by decide)), .ref (exPrint_name (by decide))⟩

example : rulesFromPeg c!"main = (\"a\\n\" / b !(!.))+ [ab0-9]* (. / error(\"x\"))\nb = c d / (d*)?\n" = .ok (.ofList exPrint) :=
  C33_round_trip (rs := exPrint) (by decide) exPrint_ok

/-- **C33**: the same for sets of rules. -/
theorem C33_round_trip_set {R : SetOfRules} (hne : R.entries ≠ []) (hu : UniqueKeys R) (h : PegRulesOK R) :
    ∃ R', rulesFromPeg (printRules R.entries) = .ok R' ∧ (∀ n, grammar R' n = grammar R n) ∧ ∀ t, parse t R' = parse t R := by
  have h1 : ∀ n, grammar (.ofList R.entries) n = grammar R n := by
    intro n
    rw [C22_last_definition_wins]
    exact (lookup_perm (List.reverse_perm _).symm hu n).symm
  exact ⟨_, C33_round_trip hne h, h1, fun t => (C11_outcome_depends_on_mapping h1 t).1⟩

/-! ### C34, C35 -/

/-- the document `main = literal` -/
def litDoc (l : Lit) : Doc := ⟨[], .one (.rule c!"main" [.sp] [.sp] (.one (.item (.plain (.lit l)) .nil)) ⟨[], .lf, []⟩)⟩

theorem litDoc_str (l : Lit) : (litDoc l).str = c!"main = " ++ l.str ++ c!"\n" := by
  simp [litDoc, Doc.str, Defs.str, Def.str, Alt.str, Seq.str, Item.str, Atom.str, Tail.str, gapsStr, Gap.str, Term.gaps, Eol.str]

theorem validName_main : ValidName c!"main" :=
  ⟨[], c!"main", [], Or.inl rfl, ⟨'m', c!"ain", rfl, by decide, by decide⟩, .nil, rfl⟩

theorem litDoc_ok {l : Lit} (h : l.OK) : (litDoc l).OK := by
  refine ⟨trivial, ?_⟩
  rw [litDoc, Defs.OK, Def.OK, Alt.OK, Seq.OK, Item.OK, Atom.OK, Tail.OK]
  exact ⟨validName_main, trivial, trivial, ⟨h, trivial, by simp [LooksLikeError]⟩, trivial, fun g hg => by cases hg⟩

theorem litDoc_rules (l : Lit) : defsRules SetOfRules.empty (litDoc l).defs = l.val.map fun v => ⟨[(c!"main", .simple (.literal v))]⟩ := by
  rw [litDoc, defsRules, defRules, Alt.denote, Seq.denote, Item.denote, Atom.denote, Tail.denote]
  cases l.val <;> rfl

theorem literal_read {l : Lit} (h : l.OK) (ha : Ascii l.str) :
    (∀ v, l.val = some v → rulesFromPeg (c!"main = " ++ l.str ++ c!"\n") = .ok ⟨[(c!"main", .simple (.literal v))]⟩) ∧
    (l.val = none → ∃ e, rulesFromPeg (c!"main = " ++ l.str ++ c!"\n") = .err e) := by
  have h1 := rulesFromPeg_doc (litDoc_ok h) (by rw [litDoc_str]; exact ascii_append (ascii_append (by decide) ha) (by decide))
  rw [litDoc_rules, litDoc_str] at h1
  constructor
  · intro v hv
    exact h1.1 _ (by rw [hv]; rfl)
  · intro hv
    exact h1.2 (by rw [hv]; rfl)

theorem pieceOf_escape {c : Char} (h : c.toNat < 128) : (pieceOf c).str = escapeChar c := by
  unfold pieceOf escapeChar
  split
  · rfl
  split
  · rfl
  split
  · rfl
  split
  · rfl
  split
  · rfl
  rfl

theorem quoted_eq : ∀ {v : Str}, Ascii v → (litOf v).str = quoted v := by
  intro v hv
  have : piecesStr (v.map pieceOf) = v.flatMap escapeChar := by
    induction v with
    | nil => rfl
    | cons c v ih =>
      rw [List.map_cons, piecesStr, ih (fun x hx => hv x (by simp [hx])), pieceOf_escape (hv c (by simp))]
      rfl
  rw [litOf, Lit.str, this, quoted]
  rfl

/-- **C34**: every ASCII text, with backslash, quote, newline, carriage return and tab escaped between double
quotes, is read as the literal with that text. -/
theorem C34_escaped_literal {v : Str} (hv : Ascii v) :
    rulesFromPeg (c!"main = " ++ quoted v ++ c!"\n") = .ok ⟨[(c!"main", .simple (.literal v))]⟩ := by
  have hl : ValidLiteral v := fun c hc => Nat.lt_trans (hv c hc) (by decide)
  rw [← quoted_eq hv]
  exact (literal_read (l := litOf v) (piecesOf_ok hl) (litOf_ascii hl)).1 v (litOf_val hl)

/-- **C34**: `\0xHH` is the character with that code, for all 256 codes. -/
theorem C34_hex {h l : Char} (hh : HexDigit h) (hl : HexDigit l) :
    rulesFromPeg (c!"main = \"\\0x" ++ [h, l] ++ c!"\"\n") =
      .ok ⟨[(c!"main", .simple (.literal [Char.ofNat (16 * digitVal h + digitVal l)]))]⟩ := by
  have hex_ascii : ∀ {c}, HexDigit c → c.toNat < 128 := by
    intro c hc
    rcases hc with ⟨_, h⟩ | ⟨_, h⟩ <;> exact Nat.lt_of_le_of_lt (char_le h) (by decide)
  exact (literal_read (l := .double [.hex h l]) ⟨hh, hl, trivial⟩
    (ascii_append (a := c!"\"\\0x") (by decide) (ascii_consC (hex_ascii hh) (ascii_consC (hex_ascii hl) (by decide))))).1 _ rfl

theorem C34_hex_all {n : Nat} (h : n < 256) :
    rulesFromPeg (c!"main = \"\\0x" ++ [hexDigit (n / 16), hexDigit (n % 16)] ++ c!"\"\n") =
      .ok ⟨[(c!"main", .simple (.literal [Char.ofNat n]))]⟩ := by
  have h1 := hexDigit_ok (n := n / 16) (by omega)
  have h2 := hexDigit_ok (n := n % 16) (by omega)
  rw [C34_hex h1.1 h2.1, h1.2.1, h2.2.1, Nat.div_add_mod]

/-- **C34**: any mixture of plain characters and escapes. -/
theorem C34_pieces {ps : List Piece} (h : PiecesOK ps) (ha : Ascii (piecesStr ps)) :
    rulesFromPeg (c!"main = \"" ++ piecesStr ps ++ c!"\"\n") = .ok ⟨[(c!"main", .simple (.literal (ps.map Piece.val)))]⟩ := by
  have := (literal_read (l := .double ps) h (ascii_append (ascii_consC (by decide) ha) (by decide))).1 _ rfl
  rw [← this]
  simp [Lit.str]

example : quoted c!"a\"\\\n" = c!"\"a\\\"\\\\\\n\"" := by decide

/-- **C35**: what single-quoted literals denote: the text with every backslash doubled. -/
theorem C35_single_quoted {b : Str} (hne : b ≠ []) (hq : '\'' ∉ b) (ha : Ascii b) :
    rulesFromPeg (c!"main = '" ++ b ++ c!"'\n") = .ok ⟨[(c!"main", .simple (.literal (doubled b)))]⟩ := by
  have := (literal_read (l := .single b) hq (ascii_append (ascii_consC (by decide) ha) (by decide))).1 (doubled b) (by simp [Lit.val, hne])
  rw [← this]
  simp [Lit.str]

/-- **C35**: they are verbatim exactly when they contain no backslash. -/
theorem C35_verbatim_iff (b : Str) : doubled b = b ↔ '\\' ∉ b := by
  have hlen : ∀ b : Str, b.length + b.count '\\' = (doubled b).length := by
    intro b
    induction b with
    | nil => rfl
    | cons c b ih =>
      have e : doubled (c :: b) = (if c = '\\' then ['\\', '\\'] else [c]) ++ doubled b := rfl
      rw [e]
      by_cases hc : c = '\\'
      · subst hc
        simp
        omega
      · have : (c == '\\') = false := by simp [hc]
        simp [hc]
        omega
  constructor
  · intro h hm
    have h1 := hlen b
    rw [h] at h1
    have := List.count_pos_iff.mpr hm
    omega
  · intro h
    induction b with
    | nil => rfl
    | cons c b ih =>
      have e : doubled (c :: b) = (if c = '\\' then ['\\', '\\'] else [c]) ++ doubled b := rfl
      have hc : c ≠ '\\' := fun e => h (by simp [e])
      rw [e, if_neg hc, ih (fun hm => h (by simp [hm]))]
      rfl

/-- **C35**: the empty single-quoted literal is refused, although the double-quoted one is fine. -/
theorem C35_empty_rejected : (∃ e, rulesFromPeg c!"main = ''\n" = .err e) ∧
    rulesFromPeg c!"main = \"\"\n" = .ok ⟨[(c!"main", .simple (.literal []))]⟩ :=
  ⟨(literal_read (l := .single []) (by simp [Lit.OK]) (by decide)).2 rfl, C34_escaped_literal (v := []) (by decide)⟩

/-- **C35** refuted: `'\n'` is not the text between the quotes. -/
theorem C35_not_verbatim : rulesFromPeg c!"main = '\\n'\n" = .ok ⟨[(c!"main", .simple (.literal c!"\\\\n"))]⟩ :=
  C35_single_quoted (b := c!"\\n") (by decide) (by decide) (by decide)

/-! ### C37 -/

mutual
theorem def_closed (x : Str) : ∀ (d : Def) (m m' : Meaning), d.denote m = some m' →
    m' x = (d.ruleFor x).or ((m x).or (d.inModule x))
  | .rule n g1 g2 e t, m, m', h => by
    rw [Def.denote] at h
    rw [Def.ruleFor, Def.inModule]
    cases he : e.denote with
    | none => rw [he] at h; cases h
    | some es =>
      rw [he] at h
      cases h
      by_cases hx : x = n <;> simp [hx]
  | .module n g1 g2 ds t, m, m', h => by
    rw [Def.denote] at h
    rw [Def.ruleFor, Def.inModule]
    cases he : ds.denote (fun _ => none) with
    | none => rw [he] at h; cases h
    | some m1 =>
      rw [he] at h
      cases h
      have := defs_closed x ds _ _ he
      simp [this]
theorem defs_closed (x : Str) : ∀ (ds : Defs) (m m' : Meaning), ds.denote m = some m' →
    m' x = (ds.lastRule x).or ((m x).or (ds.firstModule x))
  | .one d, m, m', h => by
    rw [Defs.denote] at h
    rw [Defs.lastRule, Defs.firstModule]
    exact def_closed x d m m' h
  | .cons d ds, m, m', h => by
    rw [Defs.denote] at h
    rw [Defs.lastRule, Defs.firstModule]
    cases hd : d.denote m with
    | none => rw [hd] at h; cases h
    | some m1 =>
      rw [hd] at h
      rw [defs_closed x ds m1 m' h, def_closed x d m m1 hd]
      cases ds.lastRule x <;> cases d.ruleFor x <;> cases m x <;> cases d.inModule x <;> rfl
end

/-- **C37**: which definition of a name counts: the last rule for it outside of modules; if there is none,
the first module that has one, there again the last. -/
theorem C37_resolution {d : Doc} {R : SetOfRules} (h : d.OK) (hR : rulesFromPeg d.str = .ok R) (x : Str) :
    grammar R x = (d.defs.lastRule x).or (d.defs.firstModule x) := by
  have ha := C31_ok_only_on_ascii hR
  have h1 := rulesFromPeg_denote h ha
  cases hd : d.denote with
  | none =>
    obtain ⟨e, he⟩ := h1.2 hd
    rw [he] at hR
    cases hR
  | some m =>
    obtain ⟨R', hR', rfl, _⟩ := h1.1 m hd
    rw [hR'] at hR
    cases hR
    rw [defs_closed x d.defs _ _ hd]
    rfl

mutual
theorem def_names : ∀ (d : Def) (m m' : Meaning), d.denote m = some m' → ∀ x, (m' x).isSome ↔ (m x).isSome ∨ x ∈ d.names
  | .rule n g1 g2 e t, m, m', h => by
    intro x
    rw [Def.denote] at h
    rw [Def.names]
    cases he : e.denote with
    | none => rw [he] at h; cases h
    | some es =>
      rw [he] at h
      cases h
      by_cases hx : x = n <;> simp [hx]
  | .module n g1 g2 ds t, m, m', h => by
    intro x
    rw [Def.denote] at h
    rw [Def.names]
    cases he : ds.denote (fun _ => none) with
    | none => rw [he] at h; cases h
    | some m1 =>
      rw [he] at h
      cases h
      have := defs_names ds _ _ he x
      simp at this
      rw [← this]
      simp
theorem defs_names : ∀ (ds : Defs) (m m' : Meaning), ds.denote m = some m' → ∀ x, (m' x).isSome ↔ (m x).isSome ∨ x ∈ ds.names
  | .one d, m, m', h => by
    rw [Defs.denote] at h
    rw [Defs.names]
    exact def_names d m m' h
  | .cons d ds, m, m', h => by
    intro x
    rw [Defs.denote] at h
    rw [Defs.names]
    cases hd : d.denote m with
    | none => rw [hd] at h; cases h
    | some m1 =>
      rw [hd] at h
      rw [defs_names ds m1 m' h, def_names d m m1 hd, List.mem_append, or_assoc]
end

/-- **C37**: the rules are registered under the names written before `=`, without the names of modules. -/
theorem C37_bare_names {d : Doc} {R : SetOfRules} (h : d.OK) (hR : rulesFromPeg d.str = .ok R) (x : Str) :
    (∃ e, grammar R x = some e) ↔ x ∈ d.defs.names := by
  have ha := C31_ok_only_on_ascii hR
  have h1 := rulesFromPeg_denote h ha
  cases hd : d.denote with
  | none =>
    obtain ⟨e, he⟩ := h1.2 hd
    rw [he] at hR
    cases hR
  | some m =>
    obtain ⟨R', hR', rfl, _⟩ := h1.1 m hd
    rw [hR'] at hR
    cases hR
    have := defs_names d.defs _ _ hd x
    simp at this
    rw [← this, Option.isSome_iff_exists]

/-- **C37**: later rules win over earlier ones, rules win over modules, earlier modules over later ones. -/
theorem C37_last_rule_wins {d : Doc} {R : SetOfRules} (h : d.OK) (hR : rulesFromPeg d.str = .ok R) {x : Str} {e : Expr}
    (he : d.defs.lastRule x = some e) : grammar R x = some e := by
  rw [C37_resolution h hR, he]
  rfl

theorem parse_dangling {R : SetOfRules} {n : Str} (h : grammar R c!"main" = some (.ruleName n)) (hn : grammar R n = none) (s : Str) :
    ∃ e, parse s R = .err e ∧ e.descr = .missingRule n := by
  have hf : fromStatus (Status.init s) (.missingRule n) .critical =
      some { pos := ⟨0, 0, 0, 0⟩, descr := .missingRule n, lineBefore := [],
             lineAfter := s.takeWhile (fun ch => ch != '\n' && ch != '\r'),
             parsingRules := [], priority := .critical } := by
    unfold fromStatus
    simp [Status.init, Pos.init, slice, dropBytes, takeBytes]
  have h1 : R.get c!"main" = some (.ruleName n) := h
  have h2 : R.get n = none := hn
  have hr : runRule R (Status.init s) n = raise (Status.init s) (.missingRule n) .critical := by
    rw [runRule_eq, h2]
    rfl
  refine ⟨⟨⟨0, 0, 0, 0⟩, .missingRule n, [], s.takeWhile (fun ch => ch != '\n' && ch != '\r'), [], .critical⟩, ?_, rfl⟩
  have hm : runRule R (Status.init s) c!"main" = .err ⟨⟨0, 0, 0, 0⟩, .missingRule n, [], s.takeWhile (fun ch => ch != '\n' && ch != '\r'), [], .critical⟩ := by
    rw [runRule_eq, h1]
    have e0 : (if (Status.init s).traceRules = true then (Status.init s).pushRule (c!"r:" ++ c!"main") else Status.init s) = Status.init s := rfl
    simp only [e0, runExpr_ruleName, hr, raise, hf, asExpr]
  rw [parse_eq, hm]

/-- **C37** refuted for prefixes: the rules of a module cannot be referred to with the name of the module, as
the documentation suggests. -/
theorem C37_module_prefix_is_not_applied :
    rulesFromPeg c!"main = b.bs\nb { bs = 'x'\n}\n" =
      .ok ⟨[(c!"main", .ruleName c!"b.bs"), (c!"bs", .simple (.literal c!"x"))]⟩ ∧
    ∀ t, ∃ e, parse t ⟨[(c!"main", .ruleName c!"b.bs"), (c!"bs", .simple (.literal c!"x"))]⟩ = .err e ∧
      e.descr = .missingRule c!"b.bs" :=
  ⟨rulesFromPeg_of 200 (by decide +kernel), fun t => parse_dangling (by decide) (by decide) t⟩

/-- `n = 'v'` -/
def exRule (n v : Char) : Def := .rule [n] [.sp] [.sp] (.one (.item (.plain (.lit (.single [v]))) .nil)) ⟨[], .lf, []⟩

theorem exRule_ok {n v : Char} (h : WordChar n) (hv : v ≠ '\'') : (exRule n v).OK := by
  rw [exRule, Def.OK, Alt.OK, Seq.OK, Item.OK, Atom.OK, Tail.OK]
  exact ⟨exPrint_name h, trivial, trivial, ⟨by simpa [Lit.OK] using fun e => hv e.symm, trivial, by simp [LooksLikeError]⟩, trivial, by decide⟩

/-- **C37**, on one text: the rule `a` outside wins over the one in the module although it comes first, the
second `c` wins over the first, and `d` is taken from the first module. -/
def exMods : Doc := ⟨[], .cons (exRule 'a' 'x') (.cons (.module c!"m" [.sp] [.sp] (.cons (exRule 'a' 'y') (.one (exRule 'd' '1'))) ⟨[], .lf, []⟩)
  (.cons (.module c!"n" [.sp] [.sp] (.one (exRule 'd' '2')) ⟨[], .lf, []⟩) (.cons (exRule 'c' 'p') (.one (exRule 'c' 'q')))))⟩

theorem exMods_ok : exMods.OK := by
  refine ⟨trivial, ?_⟩
  simp only [exMods, Defs.OK]
  refine ⟨exRule_ok (by decide) (by decide), ?_, ?_, exRule_ok (by decide) (by decide), exRule_ok (by decide) (by decide)⟩
  · rw [Def.OK, Defs.OK, Defs.OK]
    exact ⟨⟨'m', [], rfl, by decide, by simp⟩, trivial, trivial, ⟨exRule_ok (by decide) (by decide), exRule_ok (by decide) (by decide)⟩, trivial, by decide⟩
  · rw [Def.OK, Defs.OK]
    exact ⟨⟨'n', [], rfl, by decide, by simp⟩, trivial, trivial, exRule_ok (by decide) (by decide), trivial, by decide⟩

example : exMods.str = c!"a = 'x'\nm { a = 'y'\nd = '1'\n}\nn { d = '2'\n}\nc = 'p'\nc = 'q'\n" := by decide

example : rulesFromPeg c!"a = 'x'\nm { a = 'y'\nd = '1'\n}\nn { d = '2'\n}\nc = 'p'\nc = 'q'\n" =
    .ok ⟨[(c!"c", .simple (.literal c!"q")), (c!"d", .simple (.literal c!"1")), (c!"a", .simple (.literal c!"x"))]⟩ :=
  (rulesFromPeg_doc exMods_ok (by decide)).1 _ rfl

mutual
theorem def_names_ne : ∀ d : Def, ∃ x, x ∈ d.names
  | .rule n _ _ _ _ => ⟨n, by rw [Def.names]; simp⟩
  | .module _ _ _ ds _ => by rw [Def.names]; exact defs_names_ne ds
theorem defs_names_ne : ∀ ds : Defs, ∃ x, x ∈ ds.names
  | .one d => by rw [Defs.names]; exact def_names_ne d
  | .cons d ds => by
    obtain ⟨x, hx⟩ := def_names_ne d
    exact ⟨x, by rw [Defs.names]; simp [hx]⟩
end

/-- **C33** with C32: whatever text the rules were read from, printing them and reading them again changes nothing. -/
theorem C33_normalise {s : Str} {R : SetOfRules} (h : rulesFromPeg s = .ok R) :
    ∃ R', rulesFromPeg (printRules R.entries) = .ok R' ∧ (∀ n, grammar R' n = grammar R n) ∧ ∀ t, parse t R' = parse t R := by
  obtain ⟨h1, h2⟩ := C32_rules_in_normal_form h
  refine C33_round_trip_set ?_ h2 h1
  intro h0
  obtain ⟨_, d, h3, rfl, _⟩ := rulesFromPeg_inv h
  obtain ⟨x, hx⟩ := defs_names_ne d.defs
  obtain ⟨e, he⟩ := (C37_bare_names h3 h x).2 hx
  rw [grammar, h0] at he
  cases he

/-! ### C38 -/

theorem lit_bad (l : Lit) : l.val = none ↔ l.Empty := by
  cases l with
  | single b => simp [Lit.val, Lit.Empty]
  | double ps => simp [Lit.val, Lit.Empty]

mutual
theorem atom_bad : ∀ a : Syntax.Atom, a.denote = none ↔ a.Bad
  | .lit l => by rw [Atom.denote, Atom.Bad, Option.map_eq_none_iff, lit_bad]
  | .cls cs rs => by simp [Atom.denote, Atom.Bad]
  | .ref n => by simp [Atom.denote, Atom.Bad]
  | .dot => by simp [Atom.denote, Atom.Bad]
  | .par g1 e g2 => by rw [Atom.denote, Atom.Bad, Option.map_eq_none_iff, alt_bad e]
theorem item_bad : ∀ i : Syntax.Item, i.denote = none ↔ i.Bad
  | .plain a => by rw [Item.denote, Item.Bad, atom_bad a]
  | .star a => by rw [Item.denote, Item.Bad, Option.map_eq_none_iff, atom_bad a]
  | .plus a => by rw [Item.denote, Item.Bad, Option.map_eq_none_iff, atom_bad a]
  | .opt a => by rw [Item.denote, Item.Bad, Option.map_eq_none_iff, atom_bad a]
  | .not a => by rw [Item.denote, Item.Bad, Option.map_eq_none_iff, atom_bad a]
theorem seq_bad : ∀ s : Syntax.Seq, s.denote = none ↔ s.Bad
  | .err g1 g2 l g3 => by rw [Seq.denote, Seq.Bad, Option.map_eq_none_iff, lit_bad]
  | .item i t => by
    rw [Seq.denote, Seq.Bad, ← item_bad i, ← tail_bad t]
    cases i.denote <;> cases t.denote <;> simp
theorem tail_bad : ∀ t : Syntax.Tail, t.denote = none ↔ t.Bad
  | .nil => by simp [Tail.denote, Tail.Bad]
  | .item g i t => by
    rw [Tail.denote, Tail.Bad, ← item_bad i, ← tail_bad t]
    cases i.denote <;> cases t.denote <;> simp
  | .err g g1 g2 l g3 t => by
    rw [Tail.Bad, ← lit_bad]
    cases t with
    | nil => rw [Tail.denote, Option.map_eq_none_iff]; simp
    | item _ _ _ => rw [Tail.denote] <;> simp
    | err _ _ _ _ _ _ => rw [Tail.denote] <;> simp
theorem alt_bad : ∀ a : Syntax.Alt, a.denote = none ↔ a.Bad
  | .one s => by rw [Alt.denote, Alt.Bad, Option.map_eq_none_iff, seq_bad s]
  | .cons s g1 g2 a => by
    rw [Alt.denote, Alt.Bad, ← seq_bad s, ← alt_bad a]
    cases s.denote <;> cases a.denote <;> simp
end

mutual
theorem def_bad : ∀ (d : Def) (m : Meaning), d.denote m = none ↔ d.Bad
  | .rule n g1 g2 e t, m => by rw [Def.denote, Def.Bad, Option.map_eq_none_iff, alt_bad e]
  | .module n g1 g2 ds t, m => by rw [Def.denote, Def.Bad, Option.map_eq_none_iff, defs_bad ds]
theorem defs_bad : ∀ (ds : Defs) (m : Meaning), ds.denote m = none ↔ ds.Bad
  | .one d, m => by rw [Defs.denote, Defs.Bad, def_bad d]
  | .cons d ds, m => by
    rw [Defs.denote, Defs.Bad, ← def_bad d m]
    cases hd : d.denote m with
    | none => simp
    | some m' => simp [defs_bad ds m']
end

/-- **C38**: a text accepted by the built-in grammar compiles, unless it has an empty single-quoted literal
or an `error(...)` followed by more elements of its sequence; then an error is returned. -/
theorem C38_accepted_compiles {s : Str} {t : Node} (h : parse s PegRules.parsePeg = .ok t) :
    ∃ d : Doc, d.OK ∧ d.str = s ∧ (¬ d.defs.Bad → ∃ R, rulesFromPeg s = .ok R) ∧ (d.defs.Bad → ∃ e, rulesFromPeg s = .err e) := by
  have ha := C17_ok_only_on_ascii h
  obtain ⟨d, h1, rfl⟩ := (accepts_iff ha).1 ⟨t, h⟩
  have h2 := rulesFromPeg_denote h1 ha
  refine ⟨d, h1, rfl, fun hb => ?_, fun hb => h2.2 ((defs_bad _ _).2 hb)⟩
  cases hd : d.denote with
  | none => exact absurd ((defs_bad _ _).1 hd) hb
  | some m =>
    obtain ⟨R, hR, _⟩ := h2.1 m hd
    exact ⟨R, hR⟩

/-- **C38** refuted: an empty literal, an `error(...)` in the middle of a sequence. -/
theorem C38_counterexamples :
    ((∃ t, parse c!"main = ''\n" PegRules.parsePeg = .ok t) ∧ ∃ e, rulesFromPeg c!"main = ''\n" = .err e) ∧
    ((∃ t, parse c!"main = 'a' error(\"x\") 'b'\n" PegRules.parsePeg = .ok t) ∧
      ∃ e, rulesFromPeg c!"main = 'a' error(\"x\") 'b'\n" = .err e) := by
  have h : ∀ d : Doc, d.OK → Ascii d.str → d.denote = none →
      (∃ t, parse d.str PegRules.parsePeg = .ok t) ∧ ∃ e, rulesFromPeg d.str = .err e :=
    fun d hd ha hn => ⟨(accepts_iff ha).2 ⟨d, hd, rfl⟩, C45_no_meaning hd ha hn⟩
  constructor
  · exact h (litDoc (.single [])) (litDoc_ok (by simp [Lit.OK])) (by decide) rfl
  · refine h ⟨[], .one (.rule c!"main" [.sp] [.sp] (.one (.item (.plain (.lit (.single c!"a")))
      (.err [.sp] [] [] (.double [.plain 'x']) [] (.item [.sp] (.plain (.lit (.single c!"b"))) .nil)))) ⟨[], .lf, []⟩)⟩ ⟨trivial, ?_⟩ (by decide) rfl
    simp only [Defs.OK, Def.OK, Alt.OK, Seq.OK, Item.OK, Atom.OK, Tail.OK, ErrOK, LooksLikeError, not_false_eq_true, and_true]
    exact ⟨validName_main, trivial, trivial, ⟨by decide, sep_sp, ⟨trivial, trivial, by decide, trivial⟩, sep_sp, by decide⟩, trivial, by decide⟩

/-! ### C43 -/

/-- nothing or more definitions -/
def restStr : Option Defs → Str
  | none => []
  | some ds => ds.str

theorem restFollow {rest : Option Defs} (h : ∀ ds ∈ rest, ds.OK) : DefFollow (restStr rest) := by
  cases rest with
  | none => exact Or.inl fun c hc => by cases hc
  | some ds =>
    have := h ds rfl
    rw [restStr, ← List.append_nil ds.str]
    cases ds with
    | one d => rw [Defs.str]; rw [Defs.OK] at this; exact def_follow this _
    | cons d ds => rw [Defs.str, List.append_assoc]; rw [Defs.OK] at this; exact def_follow this.1 _

/-- **C43**: a rule whose line ends with a `//` comment, directly followed by the next definition or the end
of the text, is a syntax error: the comment includes the end of line that the rule needs. This holds
wherever the rule stands (`gs`, `pre` come before, `rest` after), for every comment and every rule. -/
theorem C43_comment_swallows_end_of_line {gs : Gaps} {pre rest : Option Defs} {n : Str} {g1 g2 g3 : Gaps} {e : Syntax.Alt} {b : Str} {eol : Eol}
    (hgs : GapsOK gs) (hpre : ∀ ds ∈ pre, ds.OK) (hn : ValidName n) (hg1 : GapsOK g1) (hg2 : GapsOK g2) (he : e.OK)
    (hg3 : GapsOK (g3 ++ [.line b eol])) (h3 : ∀ g ∈ g3, g.isEol = false) (hrest : ∀ ds ∈ rest, ds.OK)
    (ha : Ascii (preStr gs pre ++ (ruleText n g1 g2 e ++ (gapsStr (g3 ++ [.line b eol]) ++ restStr rest)))) :
    ∃ x, rulesFromPeg (preStr gs pre ++ (ruleText n g1 g2 e ++ (gapsStr (g3 ++ [.line b eol]) ++ restStr rest))) = .err (.parser x) := by
  refine openRule_rejected ⟨hgs, hpre⟩ hn hg1 hg2 he hg3 ?_ (by simp) (restFollow hrest) ha
  intro g hg
  rcases List.mem_append.mp hg with h | h
  · exact h3 g h
  · cases List.mem_singleton.mp h
    rfl

/-- **C43**: the last rule needs an end of line, too. -/
theorem C43_final_end_of_line {gs : Gaps} {pre : Option Defs} {n : Str} {g1 g2 g3 : Gaps} {e : Syntax.Alt}
    (hgs : GapsOK gs) (hpre : ∀ ds ∈ pre, ds.OK) (hn : ValidName n) (hg1 : GapsOK g1) (hg2 : GapsOK g2) (he : e.OK)
    (hg3 : GapsOK g3) (h3 : ∀ g ∈ g3, g.isEol = false) (ha : Ascii (preStr gs pre ++ (ruleText n g1 g2 e ++ gapsStr g3))) :
    ∃ x, rulesFromPeg (preStr gs pre ++ (ruleText n g1 g2 e ++ gapsStr g3)) = .err (.parser x) := by
  have := openRule_rejected (r := []) ⟨hgs, hpre⟩ hn hg1 hg2 he hg3 h3 (fun _ => rfl) (Or.inl fun c hc => by cases hc) (by rw [List.append_nil]; exact ha)
  rw [List.append_nil] at this
  exact this

/-- the example of the README in small -/
example : ∃ x, rulesFromPeg c!"a = 'x' // c\nb = 'y'\n" = .err (.parser x) :=
  C43_comment_swallows_end_of_line (gs := []) (pre := none) (rest := some (.one (exRule 'b' 'y'))) (n := c!"a") (g1 := [.sp]) (g2 := [.sp])
    (g3 := [.sp]) (e := .one (.item (.plain (.lit (.single c!"x"))) .nil)) (b := c!" c") (eol := .lf) trivial (by simp) (exPrint_name (by decide))
    trivial trivial (by rw [Alt.OK, Seq.OK, Item.OK, Atom.OK, Tail.OK]; exact ⟨by decide, trivial, by simp [LooksLikeError]⟩)
    (by decide) (by decide) (by intro ds hds; cases hds; rw [Defs.OK]; exact exRule_ok (by decide) (by decide)) (by decide)

/-- with a blank line after the comment the same rules are fine -/
example : rulesFromPeg c!"a = 'x' // c\n\nb = 'y'\n" = .ok ⟨[(c!"b", .simple (.literal c!"y")), (c!"a", .simple (.literal c!"x"))]⟩ :=
  rulesFromPeg_of 200 (by decide +kernel)

end DP
