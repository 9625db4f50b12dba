/-
The PEG text of tables that C108 is about, and what its rules derive.
-/
import Verif.Spec.Csv
import Verif.Proofs.JsonGen

namespace DP
open Spec

/-- the PEG text -/
def csvPeg : Str := c!"main = record (\"\\r\\n\" record)*
record = field (',' field)*
field = ('\"' part '\"')+ / text
part = ([ -!#-~] / \"\\r\" / \"\\n\")*
text = [ -!#-+--~]*
"

def kSegment : Expr := .and [jLit c!"\"", .ruleName c!"part", jLit c!"\""]
def kPartChar : Expr := .or [.simple (.mtch [] [(' ', '!'), ('#', '~')]), jLit c!"\r", jLit c!"\n"]

def csvRules : SetOfRules := ⟨[
  (c!"text", jMany (.simple (.mtch [] [(' ', '!'), ('#', '+'), ('-', '~')]))),
  (c!"part", jMany kPartChar),
  (c!"field", .or [jSome kSegment, .ruleName c!"text"]),
  (c!"record", .and [.ruleName c!"field", jMany (.and [jLit c!",", .ruleName c!"field"])]),
  (c!"main", .and [.ruleName c!"record", jMany (.and [jLit c!"\r\n", .ruleName c!"record"])])]⟩

theorem csv_rules : rulesFromPeg csvPeg = .ok csvRules := rulesFromPeg_of 400 (by decide +kernel)

def kText : List (Char × Char) := [(' ', '!'), ('#', '+'), ('-', '~')]
def kPart : List (Char × Char) := [(' ', '!'), ('#', '~'), ('\r', '\r'), ('\n', '\n')]
def kFst (n : Str) : List (Char × Char) :=
  if n = c!"text" then kText
  else if n = c!"part" then kPart
  else if n = c!"field" then ('"', '"') :: kText
  else if n = c!"record" then (',', ',') :: ('"', '"') :: kText
  else ('\r', '\r') :: (',', ',') :: ('"', '"') :: kText
def kFol (n : Str) : List (Option (Char × Char)) :=
  if n = c!"main" then [none]
  else if n = c!"record" then [none, some ('\r', '\r')]
  else if n = c!"part" then [some ('"', '"')]
  else [none, some ('\r', '\r'), some (',', ',')]

theorem csv_ll1 : (∀ n e, denotes csvRules n = some e → Plain (denotes csvRules) e) ∧ LL1 (denotes csvRules) :=
  ll1_of_check (nul := [c!"text", c!"part", c!"field", c!"record", c!"main"]) (fst := kFst) (fol := kFol) (by decide +kernel)

theorem csv_wf : WellFormed (denotes csvRules) :=
  wf_of_check (nul := [c!"text", c!"part", c!"field", c!"record", c!"main"])
    (ranks := [c!"text", c!"part", c!"field", c!"record", c!"main"]) (by decide +kernel)

theorem csv_productive : Productive (denotes csvRules) := productive_of_check 40 (by decide +kernel)

abbrev KG : Str → Option Expr := denotes csvRules

theorem kg_text : KG c!"text" = some (jMany (.simple (.mtch [] [(' ', '!'), ('#', '+'), ('-', '~')]))) := by decide +kernel
theorem kg_part : KG c!"part" = some (jMany kPartChar) := by decide +kernel
theorem kg_field : KG c!"field" = some (.or [jSome kSegment, .ruleName c!"text"]) := by decide +kernel
theorem kg_record : KG c!"record" = some (.and [.ruleName c!"field", jMany (.and [jLit c!",", .ruleName c!"field"])]) := by decide +kernel
theorem kg_main : KG c!"main" = some (.and [.ruleName c!"record", jMany (.and [jLit c!"\r\n", .ruleName c!"record"])]) := by decide +kernel

theorem kg_texts {n e u ns} (hn : KG n = some e) (h : Gen KG e u ns) : textL ns = u := derives_text csv_ll1.1 h (csv_ll1.1 n e hn)

theorem k_char_eq (c d : Char) : c = d ↔ c.toNat = d.toNat := ⟨fun h => by rw [h], fun h => Char.ext (UInt32.toNat_inj.1 h)⟩

theorem k_text_range (c : Char) : InClass [] [(' ', '!'), ('#', '+'), ('-', '~')] c ↔ TextData c := by
  unfold TextData
  rw [ne_eq, ne_eq, k_char_eq c '"', k_char_eq c ',']
  have e1 : ' '.toNat = 32 := rfl
  have e2 : '!'.toNat = 33 := rfl
  have e3 : '#'.toNat = 35 := rfl
  have e4 : '+'.toNat = 43 := rfl
  have e5 : '-'.toNat = 45 := rfl
  have e6 : '~'.toNat = 126 := rfl
  have e7 : '"'.toNat = 34 := rfl
  have e8 : ','.toNat = 44 := rfl
  simp only [InClass, List.not_mem_nil, false_or, List.mem_cons, or_false, exists_eq_or_imp, exists_eq_left, e1, e2, e3, e4, e5, e6, e7, e8]
  omega

/-- a character of a part -/
def PartChar (c : Char) : Prop := TextData c ∨ c = ',' ∨ c = '\r' ∨ c = '\n'

theorem k_part_range (c : Char) : (InClass [] [(' ', '!'), ('#', '~')] c ∨ c = '\r' ∨ c = '\n') ↔ PartChar c := by
  unfold PartChar TextData
  rw [ne_eq, ne_eq, k_char_eq c '"', k_char_eq c ',', k_char_eq c '\r', k_char_eq c '\n']
  have e1 : ' '.toNat = 32 := rfl
  have e2 : '!'.toNat = 33 := rfl
  have e3 : '#'.toNat = 35 := rfl
  have e6 : '~'.toNat = 126 := rfl
  have e7 : '"'.toNat = 34 := rfl
  have e8 : ','.toNat = 44 := rfl
  have e9 : '\r'.toNat = 13 := rfl
  have e10 : '\n'.toNat = 10 := rfl
  simp only [InClass, List.not_mem_nil, false_or, List.mem_cons, or_false, exists_eq_or_imp, exists_eq_left, e1, e2, e3, e6, e7, e8, e9, e10]
  omega

theorem k_text {u ns} : Gen KG (.ruleName c!"text") u ns ↔ (∀ c ∈ u, TextData c) ∧ ns = [.rule c!"text" (u.map fun c => .val [c])] := by
  rw [derives_call kg_text]
  have he : ∀ u ns, Gen KG (.simple (.mtch [] [(' ', '!'), ('#', '+'), ('-', '~')])) u ns ↔ ∃ c, TextData c ∧ u = [c] ∧ ns = [.val [c]] := by
    intro u ns
    rw [derives_cls]
    simp only [k_text_range]
  constructor
  · rintro ⟨ms, h, rfl⟩
    obtain ⟨h1, rfl⟩ := (derives_chars he).1 h
    exact ⟨h1, rfl⟩
  · rintro ⟨h1, rfl⟩
    exact ⟨_, (derives_chars he).2 ⟨h1, rfl⟩, rfl⟩

theorem k_part {u ns} : Gen KG (.ruleName c!"part") u ns ↔ (∀ c ∈ u, PartChar c) ∧ ns = [.rule c!"part" (u.map fun c => .val [c])] := by
  rw [derives_call kg_part]
  have he : ∀ u ns, Gen KG kPartChar u ns ↔ ∃ c, PartChar c ∧ u = [c] ∧ ns = [.val [c]] := by
    intro u ns
    unfold kPartChar
    rw [derives_or]
    constructor
    · rintro ⟨e, hm, h⟩
      simp only [List.mem_cons, List.not_mem_nil, or_false] at hm
      rcases hm with rfl | rfl | rfl
      · obtain ⟨c, hc, h⟩ := derives_cls.1 h
        exact ⟨c, (k_part_range c).1 (.inl hc), h⟩
      · exact ⟨'\r', .inr (.inr (.inl rfl)), derives_lit.1 h⟩
      · exact ⟨'\n', .inr (.inr (.inr rfl)), derives_lit.1 h⟩
    · rintro ⟨c, hc, rfl, rfl⟩
      rcases (k_part_range c).2 hc with hc | rfl | rfl
      · exact ⟨_, List.mem_cons_self, .cls hc⟩
      · exact ⟨jLit c!"\r", by simp, .lit _⟩
      · exact ⟨jLit c!"\n", by simp, .lit _⟩
  constructor
  · rintro ⟨ms, h, rfl⟩
    obtain ⟨h1, rfl⟩ := (derives_chars he).1 h
    exact ⟨h1, rfl⟩
  · rintro ⟨h1, rfl⟩
    exact ⟨_, (derives_chars he).2 ⟨h1, rfl⟩, rfl⟩

theorem k_textL_vals (u : Str) : textL (u.map fun c => Node.val [c]) = u := by
  induction u with
  | nil => rfl
  | cons c u ih =>
    have := derived_text_append [.val [c]] (u.map fun c => Node.val [c])
    rw [List.map_cons, ← List.singleton_append, this, ih]
    rfl

/-! ### Quoted fields -/

/-- the text of some parts between quotes -/
def segments : List Str → Str
  | [] => []
  | p :: ps => '"' :: (p ++ ('"' :: segments ps))

theorem partsIn_append (l l' : List Node) : partsIn (l ++ l') = partsIn l ++ partsIn l' := by
  induction l with
  | nil => rfl
  | cons n l ih => cases n <;> simp [partsIn, ih]

theorem k_segment_sound {u ns} (h : Gen KG kSegment u ns) : ∃ p, (∀ c ∈ p, PartChar c) ∧ u = '"' :: (p ++ ['"']) ∧ partsIn ns = [p] := by
  unfold kSegment at h
  rw [derives_cons] at h
  obtain ⟨a, r, _, _, ha, h, rfl, rfl⟩ := h
  rw [derives_cons] at h
  obtain ⟨b, r, _, _, hb, h, rfl, rfl⟩ := h
  rw [derives_cons] at h
  obtain ⟨c, r, _, _, hc, h, rfl, rfl⟩ := h
  obtain ⟨rfl, rfl⟩ := derives_nil.1 h
  obtain ⟨rfl, rfl⟩ := derives_lit.1 ha
  obtain ⟨rfl, rfl⟩ := derives_lit.1 hc
  obtain ⟨h1, rfl⟩ := k_part.1 hb
  exact ⟨b, h1, by simp, by simp [partsIn, k_textL_vals]⟩

theorem k_segment_complete {p : Str} (h : ∀ c ∈ p, PartChar c) : ∃ ns, Gen KG kSegment ('"' :: (p ++ ['"'])) ns ∧ partsIn ns = [p] := by
  refine ⟨_, .cons (.lit c!"\"") (.cons (k_part.2 ⟨h, rfl⟩) (derives_one (.lit c!"\""))), ?_⟩
  simp [partsIn, k_textL_vals]

theorem k_segments_sound {u ns} (h : Gen KG (jMany kSegment) u ns) : (∀ p ∈ partsIn ns, ∀ c ∈ p, PartChar c) ∧ u = segments (partsIn ns) := by
  refine derives_star (P := fun u ns => (∀ p ∈ partsIn ns, ∀ c ∈ p, PartChar c) ∧ u = segments (partsIn ns)) ⟨by simp [partsIn], rfl⟩ ?_ h
  intro u ns v ms h _ ih
  obtain ⟨p, hp, rfl, hn⟩ := k_segment_sound h
  rw [partsIn_append, hn]
  refine ⟨?_, ?_⟩
  · intro q hq
    rcases List.mem_append.1 hq with hq | hq
    · rw [List.mem_singleton.1 hq]; exact hp
    · exact ih.1 q hq
  · rw [ih.2]
    simp [segments]

theorem k_segments_complete : ∀ ps : List Str, (∀ p ∈ ps, ∀ c ∈ p, PartChar c) → ∃ ns, Gen KG (jMany kSegment) (segments ps) ns ∧ partsIn ns = ps
  | [], _ => ⟨[], derives_star_nil, rfl⟩
  | p :: ps, h => by
    obtain ⟨ms, h1, h2⟩ := k_segments_complete ps fun q hq => h q (List.mem_cons_of_mem _ hq)
    obtain ⟨ns, h3, h4⟩ := k_segment_complete (h p List.mem_cons_self)
    refine ⟨ns ++ ms, ?_, by rw [partsIn_append, h4, h2]; rfl⟩
    have e : segments (p :: ps) = ('"' :: (p ++ ['"'])) ++ segments ps := by simp [segments]
    rw [e]
    exact derives_star_cons h3 h1

/-- parts between quotes are a text between quotes, and the other way round -/
theorem quotes_of_segments : ∀ (p : Str) (ps : List Str), (∀ q ∈ p :: ps, ∀ c ∈ q, PartChar c) →
    ∃ u, segments (p :: ps) = '"' :: (u ++ ['"']) ∧ InQuotes (joinQuote (p :: ps)) u
  | [], [], _ => ⟨[], rfl, .nil⟩
  | [], q :: ps, h => by
    obtain ⟨u, h1, h2⟩ := quotes_of_segments q ps fun x hx => h x (List.mem_cons_of_mem _ hx)
    refine ⟨'"' :: '"' :: u, ?_, ?_⟩
    · rw [segments, h1]; rfl
    · rw [joinQuote]
      exact .quote h2
  | c :: p, ps, h => by
    obtain ⟨u, h1, h2⟩ := quotes_of_segments p ps (by
      intro x hx
      rcases List.mem_cons.1 hx with rfl | hx
      · exact fun d hd => h (c :: x) List.mem_cons_self d (List.mem_cons_of_mem _ hd)
      · exact h x (List.mem_cons_of_mem _ hx))
    refine ⟨c :: u, ?_, ?_⟩
    · rw [segments] at h1 ⊢
      have h1 := (List.cons.inj h1).2
      rw [List.cons_append, h1]
      rfl
    · have hc : PartChar c := h (c :: p) List.mem_cons_self c List.mem_cons_self
      cases ps with
      | nil => exact .char hc h2
      | cons q ps => exact .char hc h2

theorem segments_of_quotes {v u : Str} (h : InQuotes v u) : ∃ p ps, (∀ q ∈ p :: ps, ∀ c ∈ q, PartChar c) ∧
    segments (p :: ps) = '"' :: (u ++ ['"']) ∧ joinQuote (p :: ps) = v := by
  induction h with
  | nil => exact ⟨[], [], by simp, rfl, rfl⟩
  | @char c v u hc _ ih =>
    obtain ⟨p, ps, h1, h2, h3⟩ := ih
    refine ⟨c :: p, ps, ?_, ?_, ?_⟩
    · intro q hq
      rcases List.mem_cons.1 hq with rfl | hq
      · intro d hd
        rcases List.mem_cons.1 hd with rfl | hd
        · exact hc
        · exact h1 p List.mem_cons_self d hd
      · exact h1 q (List.mem_cons_of_mem _ hq)
    · rw [segments] at h2 ⊢
      rw [List.cons_append, (List.cons.inj h2).2]
      rfl
    · cases ps with
      | nil => rw [joinQuote] at h3 ⊢; rw [h3]
      | cons q ps => rw [joinQuote] at h3 ⊢; rw [List.cons_append, h3]
  | @quote v u _ ih =>
    obtain ⟨p, ps, h1, h2, h3⟩ := ih
    refine ⟨[], p :: ps, ?_, ?_, ?_⟩
    · intro q hq
      rcases List.mem_cons.1 hq with rfl | hq
      · simp
      · exact h1 q hq
    · rw [segments, h2]; rfl
    · rw [joinQuote, h3]; rfl

/-! ### Fields, records, tables -/

theorem k_field_sound {u ns} (h : Gen KG (.ruleName c!"field") u ns) : ∃ v, FieldText v u ∧ cellsIn ns = [v] := by
  rw [derives_call kg_field] at h
  obtain ⟨ms, h, rfl⟩ := h
  suffices h : FieldText (cellOf ms) u from ⟨_, h, by simp [cellsIn]⟩
  rw [derives_or] at h
  obtain ⟨e, he, h⟩ := h
  simp only [List.mem_cons, List.not_mem_nil, or_false] at he
  rcases he with rfl | rfl
  · unfold jSome at h
    rw [derives_plus] at h
    obtain ⟨a, b, m1, m2, ha, hb, rfl, rfl⟩ := h
    obtain ⟨p, hp, rfl, hn⟩ := k_segment_sound ha
    obtain ⟨h1, rfl⟩ := k_segments_sound hb
    have e : partsIn (m1 ++ m2) = p :: partsIn m2 := by rw [partsIn_append, hn]; rfl
    obtain ⟨u, h2, h3⟩ := quotes_of_segments p (partsIn m2) (by
      intro q hq
      rcases List.mem_cons.1 hq with rfl | hq
      · exact hp
      · exact h1 q hq)
    have e2 : ('"' :: (p ++ ['"'])) ++ segments (partsIn m2) = segments (p :: partsIn m2) := by simp [segments]
    rw [e2, h2, cellOf, if_neg (by rw [e]; simp), e]
    exact .quoted h3
  · obtain ⟨h1, rfl⟩ := k_text.1 h
    have e : cellOf [.rule c!"text" (u.map fun c => Node.val [c])] = u := by
      rw [cellOf, if_pos (by simp [partsIn])]
      have := kg_texts (n := c!"field") (e := .or [jSome kSegment, .ruleName c!"text"]) kg_field
        (.or (List.mem_cons_of_mem _ List.mem_cons_self) (k_text.2 ⟨h1, rfl⟩))
      exact this
    rw [e]
    exact .plain h1

theorem k_field_complete {v u} (h : FieldText v u) : ∃ t, Gen KG (.ruleName c!"field") u [t] ∧ cellsIn [t] = [v] := by
  cases h with
  | plain h =>
    have hg := Gen.or (G := KG) (es := [jSome kSegment, .ruleName c!"text"]) (List.mem_cons_of_mem _ List.mem_cons_self) (k_text.2 ⟨h, rfl⟩)
    refine ⟨_, .call kg_field hg, ?_⟩
    have := kg_texts kg_field hg
    rw [cellsIn, if_pos rfl, cellOf, if_pos (by simp [partsIn]), this]
    rfl
  | @quoted u h =>
    obtain ⟨p, ps, h1, h2, rfl⟩ := segments_of_quotes h
    obtain ⟨ns, h3, h4⟩ := k_segment_complete (h1 p List.mem_cons_self)
    obtain ⟨ms, h5, h6⟩ := k_segments_complete ps fun q hq => h1 q (List.mem_cons_of_mem _ hq)
    have e : segments (p :: ps) = ('"' :: (p ++ ['"'])) ++ segments ps := by simp [segments]
    rw [← h2, e]
    refine ⟨_, .call kg_field (.or List.mem_cons_self (derives_plus.2 ⟨_, _, _, _, h3, h5, rfl, rfl⟩)), ?_⟩
    have e : partsIn (ns ++ ms) = p :: ps := by rw [partsIn_append, h4, h6]; rfl
    rw [cellsIn, if_pos rfl, cellOf, if_neg (by rw [e]; simp), e]
    rfl

theorem cellsIn_append (l l' : List Node) : cellsIn (l ++ l') = cellsIn l ++ cellsIn l' := by
  induction l with
  | nil => rfl
  | cons n l ih => cases n <;> simp [cellsIn, ih]

theorem recordsIn_append (l l' : List Node) : recordsIn (l ++ l') = recordsIn l ++ recordsIn l' := by
  induction l with
  | nil => rfl
  | cons n l ih => cases n <;> simp [recordsIn, ih]

/-- the fields after the first one -/
inductive MoreFields : List Str → Str → Prop
  | nil : MoreFields [] []
  | cons {v u vs w} : FieldText v u → MoreFields vs w → MoreFields (v :: vs) (',' :: (u ++ w))

theorem recordText_iff {r : List Str} {u : Str} : RecordText r u ↔ ∃ v a vs b, r = v :: vs ∧ u = a ++ b ∧ FieldText v a ∧ MoreFields vs b := by
  constructor
  · intro h
    induction h with
    | @one v u h => exact ⟨v, u, [], [], rfl, by simp, h, .nil⟩
    | @more v u vs w h _ ih =>
      obtain ⟨v', a, vs', b, rfl, rfl, h1, h2⟩ := ih
      exact ⟨v, u, _, _, rfl, rfl, h, .cons h1 h2⟩
  · rintro ⟨v, a, vs, b, rfl, rfl, h1, h2⟩
    induction h2 generalizing v a with
    | nil => rw [List.append_nil]; exact .one h1
    | @cons v' u' vs' w' h3 _ ih => exact .more h1 (ih v' u' h3)

theorem k_record_sound {u ns} (h : Gen KG (.ruleName c!"record") u ns) : ∃ r, RecordText r u ∧ recordsIn ns = [r] := by
  rw [derives_call kg_record] at h
  obtain ⟨ms, h, rfl⟩ := h
  refine ⟨cellsIn ms, ?_, by simp [recordsIn]⟩
  rw [derives_cons] at h
  obtain ⟨a, r, m1, _, ha, h, rfl, rfl⟩ := h
  rw [derives_cons] at h
  obtain ⟨b, r, m2, _, hb, h, rfl, rfl⟩ := h
  obtain ⟨rfl, rfl⟩ := derives_nil.1 h
  obtain ⟨v, h1, h2⟩ := k_field_sound ha
  have h3 : MoreFields (cellsIn m2) b := by
    refine derives_star (P := fun u ns => MoreFields (cellsIn ns) u) .nil ?_ hb
    intro u ns w ms h _ ih
    rw [derives_cons] at h
    obtain ⟨a, r, _, _, ha, h, rfl, rfl⟩ := h
    rw [derives_cons] at h
    obtain ⟨b, r, m3, _, hb, h, rfl, rfl⟩ := h
    obtain ⟨rfl, rfl⟩ := derives_nil.1 h
    obtain ⟨rfl, rfl⟩ := derives_lit.1 ha
    obtain ⟨v, h1, h2⟩ := k_field_sound hb
    have e : cellsIn (([.val c!","] ++ (m3 ++ [])) ++ ms) = v :: cellsIn ms := by
      simp only [cellsIn_append, h2]
      rfl
    have e2 : (c!"," ++ (b ++ [])) ++ w = ',' :: (b ++ w) := by simp
    rw [e, e2]
    exact .cons h1 ih
  rw [recordText_iff]
  refine ⟨v, a, cellsIn m2, b, ?_, by simp, h1, h3⟩
  simp [cellsIn_append, h2]

theorem k_more_fields {vs b} (h : MoreFields vs b) : ∃ ns, Gen KG (jMany (.and [jLit c!",", .ruleName c!"field"])) b ns ∧ cellsIn ns = vs := by
  induction h with
  | nil => exact ⟨[], derives_star_nil, rfl⟩
  | @cons v u vs w h _ ih =>
    obtain ⟨ms, h1, h2⟩ := ih
    obtain ⟨t, h3, h4⟩ := k_field_complete h
    refine ⟨_, derives_star_cons (.cons (.lit c!",") (derives_one h3)) h1, ?_⟩
    rw [cellsIn_append, cellsIn_append, h4, h2]
    rfl

theorem k_record_complete {r u} (h : RecordText r u) : ∃ t, Gen KG (.ruleName c!"record") u [t] ∧ recordsIn [t] = [r] := by
  obtain ⟨v, a, vs, b, rfl, rfl, h1, h2⟩ := recordText_iff.1 h
  obtain ⟨t, h3, h4⟩ := k_field_complete h1
  obtain ⟨ns, h5, h6⟩ := k_more_fields h2
  refine ⟨_, .call kg_record (.cons h3 (derives_one h5)), ?_⟩
  rw [recordsIn, if_pos rfl, cellsIn_append, h4, h6]
  rfl

/-- the records after the first one -/
inductive MoreRecords : List (List Str) → Str → Prop
  | nil : MoreRecords [] []
  | cons {v u vs w} : RecordText v u → MoreRecords vs w → MoreRecords (v :: vs) ('\r' :: '\n' :: (u ++ w))

theorem tableText_iff {r : List (List Str)} {u : Str} : TableText r u ↔ ∃ v a vs b, r = v :: vs ∧ u = a ++ b ∧ RecordText v a ∧ MoreRecords vs b := by
  constructor
  · intro h
    induction h with
    | @one v u h => exact ⟨v, u, [], [], rfl, by simp, h, .nil⟩
    | @more v u vs w h _ ih =>
      obtain ⟨v', a, vs', b, rfl, rfl, h1, h2⟩ := ih
      exact ⟨v, u, _, _, rfl, rfl, h, .cons h1 h2⟩
  · rintro ⟨v, a, vs, b, rfl, rfl, h1, h2⟩
    induction h2 generalizing v a with
    | nil => rw [List.append_nil]; exact .one h1
    | @cons v' u' vs' w' h3 _ ih => exact .more h1 (ih v' u' h3)

theorem k_main_sound {u t} (h : Gen KG (.ruleName c!"main") u [t]) : TableText (tableOf t) u := by
  rw [derives_call kg_main] at h
  obtain ⟨ms, h, ht⟩ := h
  rw [(List.cons.inj ht).1, tableOf]
  rw [derives_cons] at h
  obtain ⟨a, r, m1, _, ha, h, rfl, rfl⟩ := h
  rw [derives_cons] at h
  obtain ⟨b, r, m2, _, hb, h, rfl, rfl⟩ := h
  obtain ⟨rfl, rfl⟩ := derives_nil.1 h
  obtain ⟨v, h1, h2⟩ := k_record_sound ha
  have h3 : MoreRecords (recordsIn m2) b := by
    refine derives_star (P := fun u ns => MoreRecords (recordsIn ns) u) .nil ?_ hb
    intro u ns w ms h _ ih
    rw [derives_cons] at h
    obtain ⟨a, r, _, _, ha, h, rfl, rfl⟩ := h
    rw [derives_cons] at h
    obtain ⟨b, r, m3, _, hb, h, rfl, rfl⟩ := h
    obtain ⟨rfl, rfl⟩ := derives_nil.1 h
    obtain ⟨rfl, rfl⟩ := derives_lit.1 ha
    obtain ⟨v, h1, h2⟩ := k_record_sound hb
    have e : recordsIn (([.val c!"\r\n"] ++ (m3 ++ [])) ++ ms) = v :: recordsIn ms := by
      simp only [recordsIn_append, h2]
      rfl
    have e2 : (c!"\r\n" ++ (b ++ [])) ++ w = '\r' :: '\n' :: (b ++ w) := by simp
    rw [e, e2]
    exact .cons h1 ih
  rw [tableText_iff]
  refine ⟨v, a, recordsIn m2, b, ?_, by simp, h1, h3⟩
  simp [recordsIn_append, h2]

theorem k_more_records {vs b} (h : MoreRecords vs b) : ∃ ns, Gen KG (jMany (.and [jLit c!"\r\n", .ruleName c!"record"])) b ns ∧ recordsIn ns = vs := by
  induction h with
  | nil => exact ⟨[], derives_star_nil, rfl⟩
  | @cons v u vs w h _ ih =>
    obtain ⟨ms, h1, h2⟩ := ih
    obtain ⟨t, h3, h4⟩ := k_record_complete h
    refine ⟨_, derives_star_cons (.cons (.lit c!"\r\n") (derives_one h3)) h1, ?_⟩
    rw [recordsIn_append, recordsIn_append, h4, h2]
    rfl

theorem k_main_complete {r u} (h : TableText r u) : ∃ t, Gen KG (.ruleName c!"main") u [t] ∧ tableOf t = r := by
  obtain ⟨v, a, vs, b, rfl, rfl, h1, h2⟩ := tableText_iff.1 h
  obtain ⟨t, h3, h4⟩ := k_record_complete h1
  obtain ⟨ns, h5, h6⟩ := k_more_records h2
  refine ⟨_, .call kg_main (.cons h3 (derives_one h5)), ?_⟩
  rw [tableOf, recordsIn_append, h4, h6]
  rfl

/-! ### ASCII, and what is written -/

theorem partChar_ascii {c : Char} (h : PartChar c) : c.toNat < 128 := by
  rcases h with ⟨_, h, _⟩ | rfl | rfl | rfl
  · omega
  · decide
  · decide
  · decide

theorem k_ascii_append {a b : Str} (ha : Ascii a) (hb : Ascii b) : Ascii (a ++ b) := fun c hc => (List.mem_append.1 hc).elim (ha c) (hb c)

theorem k_ascii_cons {c : Char} {b : Str} (ha : c.toNat < 128) (hb : Ascii b) : Ascii (c :: b) := fun d hd => by
  rcases List.mem_cons.1 hd with rfl | hd
  · exact ha
  · exact hb d hd

theorem fieldText_ascii {v u} (h : FieldText v u) : Ascii u := by
  cases h with
  | plain h => exact fun c hc => partChar_ascii (.inl (h c hc))
  | @quoted u h =>
    refine k_ascii_cons (by decide) (k_ascii_append ?_ (by decide))
    induction h with
    | nil => exact fun c hc => by cases hc
    | char hc _ ih => exact k_ascii_cons (partChar_ascii hc) ih
    | quote _ ih => exact k_ascii_cons (by decide) (k_ascii_cons (by decide) ih)

theorem recordText_ascii {v u} (h : RecordText v u) : Ascii u := by
  induction h with
  | one h => exact fieldText_ascii h
  | more h _ ih => exact k_ascii_append (fieldText_ascii h) (k_ascii_cons (by decide) ih)

theorem tableText_ascii {v u} (h : TableText v u) : Ascii u := by
  induction h with
  | one h => exact recordText_ascii h
  | more h _ ih => exact k_ascii_append (recordText_ascii h) (k_ascii_cons (by decide) (k_ascii_cons (by decide) ih))

theorem inQuotes_write : ∀ v : Str, (∀ c ∈ v, c = '"' ∨ PartChar c) → InQuotes v (doubleQuotes v)
  | [], _ => .nil
  | c :: v, h => by
    have ih := inQuotes_write v fun d hd => h d (List.mem_cons_of_mem _ hd)
    rw [doubleQuotes]
    split
    · rename_i hc
      rw [hc]
      exact .quote ih
    · rename_i hc
      exact .char ((h c List.mem_cons_self).resolve_left hc) ih

theorem recordText_write : ∀ r : List Str, r ≠ [] → (∀ v ∈ r, ∀ c ∈ v, c = '"' ∨ PartChar c) → RecordText r (writeRecord r)
  | [], h, _ => absurd rfl h
  | [v], _, h => .one (.quoted (inQuotes_write v (h v List.mem_cons_self)))
  | v :: w :: vs, _, h =>
    .more (.quoted (inQuotes_write v (h v List.mem_cons_self))) (recordText_write (w :: vs) (by simp) fun x hx => h x (List.mem_cons_of_mem _ hx))

theorem tableText_write : ∀ t : List (List Str), t ≠ [] → (∀ r ∈ t, r ≠ [] ∧ ∀ v ∈ r, ∀ c ∈ v, c = '"' ∨ PartChar c) → TableText t (writeTable t)
  | [], h, _ => absurd rfl h
  | [r], _, h => .one (recordText_write r (h r List.mem_cons_self).1 (h r List.mem_cons_self).2)
  | r :: q :: rs, _, h =>
    .more (recordText_write r (h r List.mem_cons_self).1 (h r List.mem_cons_self).2) (tableText_write (q :: rs) (by simp) fun x hx => h x (List.mem_cons_of_mem _ hx))

end DP
