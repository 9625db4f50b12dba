/-
Property C64: the grammars of README.md under "Rules by example", and those after it.
-/
import Verif.Spec.ReadmeRules
import Verif.Proofs.Example
import Verif.Props.Readme
import Verif.Props.Layout
import Verif.Props.ContextFree
import Verif.Props.Extend

namespace DP
open Spec Spec.Syntax Spec.Readme

/-- if the derivations are listed and all of them are what `parse` makes of their texts -/
theorem listed {R : SetOfRules} (L : List (Str × Node)) (k : Nat)
    (h : derivs (denotes R) k (.ruleName c!"main") = some (L.map fun x => (x.1, [x.2])))
    (hL : ∀ x ∈ L, parse x.1 R = .ok x.2) (s : Str) (t : Node) : parse s R = .ok t ↔ (s, t) ∈ L := by
  constructor
  · intro hp
    have := mem_derivs (C63_sound hp) h
    obtain ⟨x, hx, he⟩ := List.mem_map.1 this
    simp only [Prod.mk.injEq, List.cons.injEq, and_true] at he
    obtain ⟨rfl, rfl⟩ := he
    exact hx
  · intro hm
    exact hL _ hm

theorem listed_one {R : SetOfRules} (u : Str) (n : Node) (k : Nat)
    (h : derivs (denotes R) k (.ruleName c!"main") = some [(u, [n])])
    (hL : parse u R = .ok n) (s : Str) (t : Node) : parse s R = .ok t ↔ s = u ∧ t = n := by
  rw [listed [(u, n)] k h (by simpa using hL)]
  simp

/-! ### Literals -/

/-- **C64**: a grammar that is one literal accepts the text the literal denotes, if that is ASCII, and nothing
else. -/
theorem C64_literal {l : Lit} {v : Str} (hl : l.OK) (ha : Ascii l.str) (hv : l.val = some v) :
    ∃ R, rulesFromPeg (c!"main = " ++ l.str ++ c!"\n") = .ok R ∧
      ∀ s t, parse s R = .ok t ↔ Ascii v ∧ s = v ∧ t = .rule c!"main" [.val v] := by
  refine ⟨_, (literal_read hl ha).1 v hv, fun s t => ⟨fun h => ?_, ?_⟩⟩
  · have := mem_derivs (C63_sound h) (k := 2) (l := [(v, [.rule c!"main" [.val v]])]) rfl
    simp only [List.mem_singleton, Prod.mk.injEq, List.cons.injEq, and_true] at this
    obtain ⟨rfl, rfl⟩ := this
    exact ⟨C17_ok_only_on_ascii h, rfl, rfl⟩
  · rintro ⟨hv, rfl, rfl⟩
    rw [parse_iff]
    refine ⟨hv, .call_ok (e := .simple (.literal s)) rfl ?_⟩
    have := Peg.lit_ok (G := denotes ⟨[(c!"main", .simple (.literal s))]⟩) s []
    rwa [List.append_nil] at this

/-- a literal of a character that is not ASCII matches nothing -/
example : ∃ R, rulesFromPeg c!"main = \"\\0xE9\"\n" = .ok R ∧ ∀ s t, parse s R ≠ .ok t := by
  obtain ⟨R, h1, h2⟩ := C64_literal (l := .double [.hex 'E' '9']) (v := [Char.ofNat 0xE9]) (by decide) (by decide) (by decide)
  exact ⟨R, h1, fun s t h => absurd ((h2 s t).1 h).1 (by decide)⟩

theorem helloWorld_rules : rulesFromPeg helloWorld = .ok ⟨[(c!"main", .simple (.literal c!"Hello world"))]⟩ :=
  rules_of_doc (d := helloWorldDoc) (by decide +kernel) (by decide +kernel) (by decide +kernel) rfl

/-- **C64**: `'Hello world'` -/
theorem C64_hello_world : ∃ R, rulesFromPeg helloWorld = .ok R ∧ ∀ s t, parse s R = .ok t ↔
    s = c!"Hello world" ∧ t = .rule c!"main" [.val c!"Hello world"] :=
  ⟨_, helloWorld_rules, listed_one _ _ 2 rfl (parse_of_fuel (f := 20) (by decide +kernel) (by simp))⟩

theorem newline_rules : rulesFromPeg newline = .ok ⟨[(c!"main", .simple (.literal c!"Hello\nworld"))]⟩ :=
  rules_of_doc (d := newlineDoc) (by decide +kernel) (by decide +kernel) (by decide +kernel) rfl

theorem newlineApart_rules : rulesFromPeg newlineApart = .ok ⟨[(c!"main", .and [.simple (.literal c!"Hello"),
    .simple (.literal c!"\n"), .simple (.literal c!"world")])]⟩ :=
  rules_of_doc (d := newlineApartDoc) (by decide +kernel) (by decide +kernel) (by decide +kernel) rfl

theorem hexChar_rules : rulesFromPeg hexChar = .ok ⟨[(c!"main", .simple (.literal c!"Hello\x13world"))]⟩ :=
  rules_of_doc (d := hexCharDoc) (by decide +kernel) (by decide +kernel) (by decide +kernel) rfl

theorem hexApart_rules : rulesFromPeg hexApart = .ok ⟨[(c!"main", .and [.simple (.literal c!"Hello"),
    .simple (.literal c!"\x13"), .simple (.literal c!"world")])]⟩ :=
  rules_of_doc (d := hexApartDoc) (by decide +kernel) (by decide +kernel) (by decide +kernel) rfl

/-- **C64**: the end of line inside a literal, or in a literal of its own between two others: the same texts
and, once compacted, the same trees. -/
theorem C64_escape : ∃ R R', rulesFromPeg newline = .ok R ∧ rulesFromPeg newlineApart = .ok R' ∧
    (∀ s t, parse s R = .ok t ↔ s = c!"Hello\nworld" ∧ t = .rule c!"main" [.val c!"Hello\nworld"]) ∧
    (∀ s t, parse s R' = .ok t ↔ s = c!"Hello\nworld" ∧ t = .rule c!"main" [.val c!"Hello", .val c!"\n", .val c!"world"]) ∧
    ∀ s t t', parse s R = .ok t → parse s R' = .ok t' → t'.compact = t := by
  have h1 := listed_one (R := ⟨[(c!"main", .simple (.literal c!"Hello\nworld"))]⟩) _ _ 2 rfl
    (parse_of_fuel (f := 20) (by decide +kernel) (by simp))
  have h2 := listed_one (R := ⟨[(c!"main", .and [.simple (.literal c!"Hello"), .simple (.literal c!"\n"),
    .simple (.literal c!"world")])]⟩) _ _ 6 rfl (parse_of_fuel (f := 20) (by decide +kernel) (by simp))
  refine ⟨_, _, newline_rules, newlineApart_rules, h1, h2, fun s t t' h h' => ?_⟩
  rw [((h1 s t).1 h).2, ((h2 s t').1 h').2]
  rfl

/-- **C64**: the same with the code of a character. -/
theorem C64_hex : ∃ R R', rulesFromPeg hexChar = .ok R ∧ rulesFromPeg hexApart = .ok R' ∧
    (∀ s t, parse s R = .ok t ↔ s = c!"Hello\x13world" ∧ t = .rule c!"main" [.val c!"Hello\x13world"]) ∧
    (∀ s t, parse s R' = .ok t ↔ s = c!"Hello\x13world" ∧ t = .rule c!"main" [.val c!"Hello", .val c!"\x13", .val c!"world"]) ∧
    ∀ s t t', parse s R = .ok t → parse s R' = .ok t' → t'.compact = t := by
  have h1 := listed_one (R := ⟨[(c!"main", .simple (.literal c!"Hello\x13world"))]⟩) _ _ 2 rfl
    (parse_of_fuel (f := 20) (by decide +kernel) (by simp))
  have h2 := listed_one (R := ⟨[(c!"main", .and [.simple (.literal c!"Hello"), .simple (.literal c!"\x13"),
    .simple (.literal c!"world")])]⟩) _ _ 6 rfl (parse_of_fuel (f := 20) (by decide +kernel) (by simp))
  refine ⟨_, _, hexChar_rules, hexApart_rules, h1, h2, fun s t t' h h' => ?_⟩
  rw [((h1 s t).1 h).2, ((h2 s t').1 h').2]
  rfl

theorem apostrophe_rules : rulesFromPeg apostrophe = .ok ⟨[(c!"main", .simple (.literal c!"'"))]⟩ :=
  rules_of_doc (d := apostropheDoc) (by decide +kernel) (by decide +kernel) (by decide +kernel) rfl

theorem quote_rules : rulesFromPeg quote = .ok ⟨[(c!"main", .simple (.literal c!"\""))]⟩ :=
  rules_of_doc (d := quoteDoc) (by decide +kernel) (by decide +kernel) (by decide +kernel) rfl

/-- **C64**: each kind of quotes inside the other kind. -/
theorem C64_quotes : (∃ R, rulesFromPeg apostrophe = .ok R ∧ ∀ s t, parse s R = .ok t ↔
      s = c!"'" ∧ t = .rule c!"main" [.val c!"'"]) ∧
    ∃ R, rulesFromPeg quote = .ok R ∧ ∀ s t, parse s R = .ok t ↔ s = c!"\"" ∧ t = .rule c!"main" [.val c!"\""] :=
  ⟨⟨_, apostrophe_rules, listed_one _ _ 2 rfl (parse_of_fuel (f := 20) (by decide +kernel) (by simp))⟩,
    _, quote_rules, listed_one _ _ 2 rfl (parse_of_fuel (f := 20) (by decide +kernel) (by simp))⟩

/-! ### Sequences, references and choices -/

theorem concat_rules : rulesFromPeg concat = .ok ⟨[(c!"main", .and [.simple (.literal c!"Hello "), .simple (.literal c!"world")])]⟩ :=
  rules_of_doc (d := concatDoc) (by decide +kernel) (by decide +kernel) (by decide +kernel) rfl

theorem refer_rules : rulesFromPeg refer = .ok ⟨[(c!"hi", .simple (.literal c!"Hello world")), (c!"main", .ruleName c!"hi")]⟩ :=
  rules_of_doc (d := referDoc) (by decide +kernel) (by decide +kernel) (by decide +kernel) rfl

/-- **C64**: two literals one after the other, and a reference to a rule. -/
theorem C64_concat_refer : (∃ R, rulesFromPeg concat = .ok R ∧ ∀ s t, parse s R = .ok t ↔
      s = c!"Hello world" ∧ t = .rule c!"main" [.val c!"Hello ", .val c!"world"]) ∧
    ∃ R, rulesFromPeg refer = .ok R ∧ ∀ s t, parse s R = .ok t ↔
      s = c!"Hello world" ∧ t = .rule c!"main" [.rule c!"hi" [.val c!"Hello world"]] :=
  ⟨⟨_, concat_rules, listed_one _ _ 6 rfl (parse_of_fuel (f := 20) (by decide +kernel) (by simp))⟩,
    _, refer_rules, listed_one _ _ 6 rfl (parse_of_fuel (f := 20) (by decide +kernel) (by simp))⟩

theorem two_rules : rulesFromPeg two = .ok ⟨[(c!"main", .or [.simple (.literal c!"hello"), .simple (.literal c!"hi")])]⟩ :=
  rules_of_doc (d := twoDoc) (by decide +kernel) (by decide +kernel) (by decide +kernel) rfl

abbrev threeRules : SetOfRules := ⟨[(c!"main", .or [.simple (.literal c!"hello"), .simple (.literal c!"hi"),
  .simple (.literal c!"hola")])]⟩

theorem three1_rules : rulesFromPeg three1 = .ok threeRules :=
  rules_of_doc (d := three1Doc) (by decide +kernel) (by decide +kernel) (by decide +kernel) rfl

theorem three2_rules : rulesFromPeg three2 = .ok threeRules :=
  rules_of_doc (d := three2Doc) (by decide +kernel) (by decide +kernel) (by decide +kernel) rfl

theorem three3_rules : rulesFromPeg three3 = .ok threeRules :=
  rules_of_doc (d := three3Doc) (by decide +kernel) (by decide +kernel) (by decide +kernel) rfl

/-- **C64**: choices, on one line or on several: README.md:547-571. -/
theorem C64_or : (∃ R, rulesFromPeg two = .ok R ∧ ∀ s t, parse s R = .ok t ↔
      s ∈ [c!"hello", c!"hi"] ∧ t = .rule c!"main" [.val s]) ∧
    ∃ R, rulesFromPeg three1 = .ok R ∧ rulesFromPeg three2 = .ok R ∧ rulesFromPeg three3 = .ok R ∧
      ∀ s t, parse s R = .ok t ↔ s ∈ [c!"hello", c!"hi", c!"hola"] ∧ t = .rule c!"main" [.val s] := by
  refine ⟨⟨_, two_rules, fun s t => ?_⟩, _, three1_rules, three2_rules, three3_rules, fun s t => ?_⟩
  · rw [listed [(c!"hello", .rule c!"main" [.val c!"hello"]), (c!"hi", .rule c!"main" [.val c!"hi"])] 6 rfl ?_]
    · simp only [List.mem_cons, Prod.mk.injEq, List.not_mem_nil, or_false]
      constructor
      · rintro (⟨rfl, rfl⟩ | ⟨rfl, rfl⟩) <;> simp
      · rintro ⟨rfl | rfl, rfl⟩ <;> simp
    · simp only [List.mem_cons, List.not_mem_nil, or_false]
      rintro x (rfl | rfl) <;> exact parse_of_fuel (f := 20) (by decide +kernel) (by simp)
  · rw [listed [(c!"hello", .rule c!"main" [.val c!"hello"]), (c!"hi", .rule c!"main" [.val c!"hi"]),
      (c!"hola", .rule c!"main" [.val c!"hola"])] 6 rfl ?_]
    · simp only [List.mem_cons, Prod.mk.injEq, List.not_mem_nil, or_false]
      constructor
      · rintro (⟨rfl, rfl⟩ | ⟨rfl, rfl⟩ | ⟨rfl, rfl⟩) <;> simp
      · rintro ⟨rfl | rfl | rfl, rfl⟩ <;> simp
    · simp only [List.mem_cons, List.not_mem_nil, or_false]
      rintro x (rfl | rfl | rfl) <;> exact parse_of_fuel (f := 20) (by decide +kernel) (by simp)

/-! ### Parentheses and options -/

abbrev greetRules : SetOfRules := ⟨[(c!"main", .and [.or [.simple (.literal c!"hello"), .simple (.literal c!"hi")],
  .simple (.literal c!" world")])]⟩

theorem par1_rules : rulesFromPeg par1 = .ok greetRules :=
  rules_of_doc (d := par1Doc) (by decide +kernel) (by decide +kernel) (by decide +kernel) rfl

theorem par2_rules : rulesFromPeg par2 = .ok greetRules :=
  rules_of_doc (d := par2Doc) (by decide +kernel) (by decide +kernel) (by decide +kernel) rfl

theorem par3_rules : rulesFromPeg par3 = .ok greetRules :=
  rules_of_doc (d := par3Doc) (by decide +kernel) (by decide +kernel) (by decide +kernel) rfl

theorem par4_rules : rulesFromPeg par4 = .ok greetRules :=
  rules_of_doc (d := par4Doc) (by decide +kernel) (by decide +kernel) (by decide +kernel) rfl

/-- **C64**: a choice in parentheses, on one line or on several: README.md:590-614. -/
theorem C64_parentheses : ∃ R, rulesFromPeg par1 = .ok R ∧ rulesFromPeg par2 = .ok R ∧ rulesFromPeg par3 = .ok R ∧
    rulesFromPeg par4 = .ok R ∧ ∀ s t, parse s R = .ok t ↔
      ∃ w ∈ [c!"hello", c!"hi"], s = w ++ c!" world" ∧ t = .rule c!"main" [.val w, .val c!" world"] := by
  refine ⟨_, par1_rules, par2_rules, par3_rules, par4_rules, fun s t => ?_⟩
  rw [listed [(c!"hello world", .rule c!"main" [.val c!"hello", .val c!" world"]),
    (c!"hi world", .rule c!"main" [.val c!"hi", .val c!" world"])] 8 rfl ?_]
  · simp
  · simp only [List.mem_cons, List.not_mem_nil, or_false]
    rintro x (rfl | rfl) <;> exact parse_of_fuel (f := 20) (by decide +kernel) (by simp)

theorem organized_rules : rulesFromPeg organized = .ok ⟨[(c!"main", .or [.and [.or [.simple (.literal c!"hello"),
    .simple (.literal c!"hi")], .simple (.literal c!" world")], .simple (.literal c!"bye")])]⟩ :=
  rules_of_doc (d := organizedDoc) (by decide +kernel) (by decide +kernel) (by decide +kernel) rfl

/-- **C64**: the alternatives of the rule are outside the parentheses. -/
theorem C64_organized : ∃ R, rulesFromPeg organized = .ok R ∧ ∀ s t, parse s R = .ok t ↔
    (∃ w ∈ [c!"hello", c!"hi"], s = w ++ c!" world" ∧ t = .rule c!"main" [.val w, .val c!" world"]) ∨
      s = c!"bye" ∧ t = .rule c!"main" [.val c!"bye"] := by
  refine ⟨_, organized_rules, fun s t => ?_⟩
  rw [listed [(c!"hello world", .rule c!"main" [.val c!"hello", .val c!" world"]),
    (c!"hi world", .rule c!"main" [.val c!"hi", .val c!" world"]), (c!"bye", .rule c!"main" [.val c!"bye"])] 10 rfl ?_]
  · simp [or_assoc]
  · simp only [List.mem_cons, List.not_mem_nil, or_false]
    rintro x (rfl | rfl | rfl) <;> exact parse_of_fuel (f := 20) (by decide +kernel) (by simp)

theorem optional_rules : rulesFromPeg Readme.optional = .ok ⟨[(c!"main", .and [.or [.simple (.literal c!"hello"),
    .simple (.literal c!"hi")], .rep (.simple (.literal c!" world")) 0 (some 1)])]⟩ :=
  rules_of_doc (d := optionalDoc) (by decide +kernel) (by decide +kernel) (by decide +kernel) rfl

/-- **C64**: with `?` the world can be left out. -/
theorem C64_optional : ∃ R, rulesFromPeg Readme.optional = .ok R ∧ ∀ s t, parse s R = .ok t ↔
    ∃ w ∈ [c!"hello", c!"hi"], (s = w ∧ t = .rule c!"main" [.val w]) ∨
      (s = w ++ c!" world" ∧ t = .rule c!"main" [.val w, .val c!" world"]) := by
  refine ⟨_, optional_rules, fun s t => ?_⟩
  rw [listed [(c!"hello", .rule c!"main" [.val c!"hello"]), (c!"hello world", .rule c!"main" [.val c!"hello", .val c!" world"]),
    (c!"hi", .rule c!"main" [.val c!"hi"]), (c!"hi world", .rule c!"main" [.val c!"hi", .val c!" world"])] 10 rfl ?_]
  · simp [or_assoc]
  · simp only [List.mem_cons, List.not_mem_nil, or_false]
    rintro x (rfl | rfl | rfl | rfl) <;> exact parse_of_fuel (f := 20) (by decide +kernel) (by simp)

/-! ### Repetitions -/

theorem repetitions_rules : rulesFromPeg repetitions = .ok ⟨[(c!"zero_or_many", .rep (.simple (.literal c!"b")) 0 none),
    (c!"one_or_more", .rep (.simple (.literal c!"a")) 1 none),
    (c!"main", .or [.ruleName c!"one_or_more_a", .ruleName c!"zero_or_many_b"])]⟩ :=
  rules_of_doc (d := repetitionsDoc) (by decide +kernel) (by decide +kernel) (by decide +kernel) rfl

/-- **C64**: the grammar of README.md:635-637 is read, but it uses names it does not define: every text gets
the error of the missing rule, at its start. -/
theorem C64_repetitions : ∃ R, rulesFromPeg repetitions = .ok R ∧ ∀ s, Ascii s →
    ∃ e, parse s R = .err e ∧ e.priority = .critical ∧ e.descr = .missingRule c!"one_or_more_a" ∧ CoordsOf [] e.pos := by
  refine ⟨_, repetitions_rules, fun s ha => ?_⟩
  have hc : Peg (denotes ⟨[(c!"zero_or_many", .rep (.simple (.literal c!"b")) 0 none),
      (c!"one_or_more", .rep (.simple (.literal c!"a")) 1 none),
      (c!"main", .or [.ruleName c!"one_or_more_a", .ruleName c!"zero_or_many_b"])]⟩) (.ruleName c!"main") s
      (.crit (.missingRule c!"one_or_more_a") s) := .call_crit rfl (.or_crit (.call_missing rfl))
  obtain ⟨e, h1, h2, h3, pre, h4, h5⟩ := C09_critical_errors_are_final ha (hits_iff_crit.2 hc)
  have : pre = [] := by
    have := congrArg List.length h4
    simp only [List.length_append] at this
    exact List.length_eq_zero_iff.1 (by omega)
  subst this
  exact ⟨e, h1, h2, h3, h5⟩

/-! ### Up to a literal -/

/-- the grammar `main = (!'l' .)* 'l'` -/
def tillDoc (l : Str) : Doc := ⟨[], .one (.rule c!"main" [.sp] [.sp] (.one (.item (.star (.par [] (.one
  (.item (.not (.lit (.single l))) (.item [.sp] (.plain .dot) .nil))) [])) (.item [.sp] (.plain (.lit (.single l))) .nil))) ⟨[], .lf, []⟩)⟩

theorem tillDoc_str (l : Str) : (tillDoc l).str = c!"main = (!'" ++ l ++ c!"' .)* '" ++ l ++ c!"'\n" := by
  simp [tillDoc, Doc.str, Defs.str, Def.str, Alt.str, Seq.str, Item.str, Atom.str, Tail.str, Lit.str, gapsStr, Gap.str, Term.gaps, Eol.str]

theorem sepOK_sp : SepOK [.sp] := ⟨trivial, .sp, [], rfl, rfl⟩

theorem tillDoc_ok {l : Str} (h : '\'' ∉ l) : (tillDoc l).OK := by
  refine ⟨trivial, ?_⟩
  simp only [tillDoc, Defs.OK, Def.OK, Alt.OK, Seq.OK, Item.OK, Atom.OK, Tail.OK, Lit.OK]
  exact ⟨validName_main, trivial, trivial, ⟨⟨trivial, ⟨h, ⟨sepOK_sp, trivial, trivial, id⟩, id⟩, trivial⟩,
    ⟨sepOK_sp, h, trivial, id⟩, id⟩, trivial, fun g hg => by cases hg⟩

theorem doubled_id {l : Str} (h : '\\' ∉ l) : doubled l = l := by
  induction l with
  | nil => rfl
  | cons c l ih =>
    rw [List.mem_cons, not_or] at h
    have hc : c ≠ '\\' := Ne.symm h.1
    have := ih h.2
    simp only [doubled] at this ⊢
    rw [List.flatMap_cons, this, if_neg hc]
    rfl

/-- **C64**: `(!'l' .)* 'l'` accepts the texts that end with `l` and have no other occurrence of `l`; of the text
before it, one node for each character. -/
theorem C64_till {l : Str} (hl : l ≠ []) (ha : Ascii l) (hq : '\'' ∉ l) (hb : '\\' ∉ l) :
    ∃ R, rulesFromPeg (c!"main = (!'" ++ l ++ c!"' .)* '" ++ l ++ c!"'\n") = .ok R ∧ ∀ s t, parse s R = .ok t ↔
      Ascii s ∧ ∃ w, s = w ++ l ∧ (∀ p q, s = p ++ l ++ q → q = []) ∧ t = .rule c!"main" (chars w ++ [.val l]) := by
  have hasc : Ascii (tillDoc l).str := by
    rw [tillDoc_str]
    exact ascii_two (ascii_two (ascii_two (ascii_two (by decide) ha) (by decide)) ha) (by decide)
  have hR := (rulesFromPeg_doc (tillDoc_ok hq) hasc).1 ⟨[(c!"main", .and [.rep (.and [.not (.simple (.literal l)), .simple .dot]) 0 none,
    .simple (.literal l)])]⟩ (by
      simp only [tillDoc, defsRules, defRules, Alt.denote, Seq.denote, Item.denote, Atom.denote, Tail.denote, Lit.val, if_neg hl,
        doubled_id hb]
      rfl)
  rw [tillDoc_str] at hR
  refine ⟨_, hR, fun s t => ?_⟩
  rw [parse_iff]
  refine and_congr_right fun _ => ?_
  constructor
  · intro h
    obtain ⟨cs, h0, h1⟩ := inv_call (e := .and [.rep (.and [.not (.simple (.literal l)), .simple .dot]) 0 none,
      .simple (.literal l)]) rfl h
    obtain ⟨q, n1, n2, h3, h4, rfl⟩ := inv_two h1
    obtain ⟨rfl, rfl⟩ := inv_lit h4
    obtain ⟨w, rfl, rfl, h5, _⟩ := till_inv h3
    simp only [List.cons.injEq, and_true] at h0
    simp only [List.append_nil] at h5 ⊢
    exact ⟨w, rfl, before_iff.1 h5, h0⟩
  · rintro ⟨w, rfl, h1, rfl⟩
    have h2 := till_ok (G := denotes ⟨[(c!"main", .and [.rep (.and [.not (.simple (.literal l)), .simple .dot]) 0 none,
      .simple (.literal l)])]⟩) (before_iff.2 h1) (.inr (List.prefix_refl l))
    have h3 := Peg.lit_ok (G := denotes ⟨[(c!"main", .and [.rep (.and [.not (.simple (.literal l)), .simple .dot]) 0 none,
      .simple (.literal l)])]⟩) l []
    rw [List.append_nil] at h3
    exact .call_ok rfl (.and_ok h2 (.and_ok h3 (.and_nil _)))

/-- `abab` is not accepted with `ab`, `aab` is -/
example : ∃ R, rulesFromPeg c!"main = (!'ab' .)* 'ab'\n" = .ok R ∧ (∀ t, parse c!"abab" R ≠ .ok t) ∧
    parse c!"aab" R = .ok (.rule c!"main" [.val c!"a", .val c!"ab"]) := by
  obtain ⟨R, h1, h2⟩ := C64_till (l := c!"ab") (by decide) (by decide) (by decide) (by decide)
  refine ⟨R, h1, fun t h => ?_, (h2 _ _).2 ⟨by decide, c!"a", rfl, fun p q h => ?_, rfl⟩⟩
  · obtain ⟨_, w, _, h3, _⟩ := (h2 _ _).1 h
    cases h3 [] c!"ab" rfl
  · match p, h with
    | [], h => cases h
    | [_], h => exact (List.cons.inj (List.cons.inj (List.cons.inj h).2).2).2.symm
    | _ :: _ :: p, h =>
      have := congrArg List.length h
      simp at this
      omega

/-- the rules of README.md:653-659 -/
abbrev commentRules : SetOfRules := ⟨[(c!"comment", .or [
  .and [.simple (.literal c!"//"), .rep (.and [.not (.simple (.literal c!"\\\\n")), .simple .dot]) 0 none],
  .and [.simple (.literal c!"/*"), .rep (.and [.not (.simple (.literal c!"*/")), .simple .dot]) 0 none,
    .simple (.literal c!"*/")]])]⟩

theorem comment_rules : rulesFromPeg Readme.comment = .ok commentRules :=
  rules_of_doc (d := commentDoc) (by decide +kernel) (by decide +kernel) (by decide +kernel) rfl

/-- **C64**: the rule for comments of README.md:653-659 (called from a rule `main`). A comment with `/*` goes up to the
first `*/`. But a comment with `//` does not end at the end of the line: between single quotes `\n` is not an end
of line, but two backslashes and an `n`, and the comment goes up to those. -/
theorem C64_comment : ∃ R, rulesFromPeg Readme.comment = .ok R ∧ ∀ s t,
    parse s (R.add c!"main" (.ruleName c!"comment")) = .ok t ↔ Ascii s ∧
      ((∃ w, s = c!"//" ++ w ∧ ¬ c!"\\\\n" <:+: w ∧ t = .rule c!"main" [.rule c!"comment" (.val c!"//" :: chars w)]) ∨
      ∃ w, s = c!"/*" ++ w ++ c!"*/" ∧ (∀ p q, w ++ c!"*/" = p ++ c!"*/" ++ q → q = []) ∧
        t = .rule c!"main" [.rule c!"comment" (.val c!"/*" :: chars w ++ [.val c!"*/"])]) := by
  refine ⟨_, comment_rules, fun s t => ?_⟩
  rw [parse_iff]
  refine and_congr_right fun _ => ?_
  constructor
  · intro h
    obtain ⟨cs, h0, h1⟩ := inv_call (e := .ruleName c!"comment") rfl h
    obtain ⟨cs', rfl, h2⟩ := inv_call (e := .or [
      .and [.simple (.literal c!"//"), .rep (.and [.not (.simple (.literal c!"\\\\n")), .simple .dot]) 0 none],
      .and [.simple (.literal c!"/*"), .rep (.and [.not (.simple (.literal c!"*/")), .simple .dot]) 0 none,
        .simple (.literal c!"*/")]]) rfl h1
    cases h0
    rcases inv_or_cons h2 with h3 | ⟨_, h3⟩
    · obtain ⟨q, n1, n2, h4, h5, rfl⟩ := inv_two h3
      obtain ⟨rfl, rfl⟩ := inv_lit h4
      obtain ⟨w, rfl, rfl, h6, _⟩ := till_inv h5
      rw [List.append_nil]
      exact .inl ⟨w, rfl, (before_nil (by decide)).1 h6, rfl⟩
    · rcases inv_or_cons h3 with h4 | ⟨_, h4⟩
      · obtain ⟨q, n1, n2, h5, h6, rfl⟩ := inv_and h4
        obtain ⟨rfl, rfl⟩ := inv_lit h5
        obtain ⟨q', n3, n4, h7, h8, rfl⟩ := inv_two h6
        obtain ⟨rfl, rfl⟩ := inv_lit h8
        obtain ⟨w, rfl, rfl, h9, _⟩ := till_inv h7
        rw [List.append_nil] at h9
        exact .inr ⟨w, by simp, before_iff.1 h9, rfl⟩
      · exact (inv_or_nil h4).elim
  · rintro (⟨w, rfl, h1, rfl⟩ | ⟨w, rfl, h1, rfl⟩)
    · have h2 := till_ok (G := denotes (commentRules.add c!"main" (.ruleName c!"comment")))
        ((before_nil (by decide)).2 h1) (.inl rfl)
      rw [List.append_nil] at h2
      have := Peg.and_ok (.lit_ok c!"//" w) (.and_ok h2 (.and_nil _))
      rw [List.append_nil] at this
      exact .call_ok rfl (.call_ok rfl (.or_ok this))
    · have h2 := till_ok (G := denotes (commentRules.add c!"main" (.ruleName c!"comment")))
        (before_iff.2 h1) (.inr (List.prefix_refl _))
      have h3 := Peg.and_ok (.lit_ok c!"/*" (w ++ c!"*/")) (.and_ok h2 (.and_ok (.lit_ok c!"*/" []) (.and_nil _)))
      exact .call_ok rfl (.call_ok rfl (.or_next (.and_fail (.lit_fail _ _ (by simp))) (.or_ok h3)))

/-- two lines are one comment, to the end of the text -/
example : ∃ R, rulesFromPeg Readme.comment = .ok R ∧
    ∃ t, parse c!"// one\ntwo" (R.add c!"main" (.ruleName c!"comment")) = .ok t := by
  obtain ⟨R, h1, h2⟩ := C64_comment
  exact ⟨R, h1, _, (h2 _ _).2 ⟨by decide, .inl ⟨c!" one\ntwo", rfl, by decide, rfl⟩⟩⟩

/-! ### Grammars that are not accepted -/

/-- **C64**: two grammars of README.md are not accepted. In README.md:666-671 a class follows another without a
blank between them; in README.md:858-866 a class has a character after its ranges. -/
theorem C64_refused : (∃ e, rulesFromPeg classes = .err (.parser e)) ∧ ∃ e, rulesFromPeg atoms = .err (.parser e) :=
  ⟨rulesFromPeg_syntaxError 400 (by decide +kernel), rulesFromPeg_syntaxError 400 (by decide +kernel)⟩

/-! ### Recursion -/

abbrev asBody : Expr := .or [.and [.simple (.literal c!"a"), .ruleName c!"as"], .simple (.literal c!"a")]

abbrev recursionRules : SetOfRules := ⟨[(c!"ak", .rep (.simple (.literal c!"a")) 1 none), (c!"as", asBody)]⟩

theorem recursion_rules : rulesFromPeg recursion = .ok recursionRules :=
  rules_of_doc (d := recursionDoc) (by decide +kernel) (by decide +kernel) (by decide +kernel) rfl

/-- the tree of `n + 1` `a`s -/
def asTree : Nat → Node
  | 0 => .rule c!"as" [.val c!"a"]
  | n + 1 => .rule c!"as" [.val c!"a", asTree n]

theorem as_ok {G : Str → Option Expr} (hg : G c!"as" = some asBody) (n : Nat) :
    ∀ r : Str, r.head? ≠ some 'a' → Peg G (.ruleName c!"as") (List.replicate (n + 1) 'a' ++ r) (.ok r [asTree n]) := by
  have none (r : Str) (hr : r.head? ≠ some 'a') : Peg G (.ruleName c!"as") r .fail := by
    have : ¬ c!"a" <+: r := by
      rintro ⟨q, rfl⟩
      exact hr rfl
    exact .call_fail hg (.or_next (.and_fail (.lit_fail _ _ this)) (.or_next (.lit_fail _ _ this) (.or_nil _)))
  induction n with
  | zero =>
    intro r hr
    exact .call_ok hg (.or_next (.and_tail_fail (.lit_ok c!"a" r) (.and_fail (none r hr))) (.or_ok (.lit_ok c!"a" r)))
  | succ n ih =>
    intro r hr
    exact .call_ok hg (.or_ok (.and_ok (.lit_ok c!"a" _) (.and_ok (ih r hr) (.and_nil _))))

/-- **C64**: "one or more 'a' recursive": `as` reads one or more `a`s, and so does `ak`, with flat trees. -/
theorem C64_recursion : ∃ R, rulesFromPeg recursion = .ok R ∧
    (∀ s t, parse s (R.add c!"main" (.ruleName c!"as")) = .ok t ↔
      ∃ n, s = List.replicate (n + 1) 'a' ∧ t = .rule c!"main" [asTree n]) ∧
    ∀ s t, parse s (R.add c!"main" (.ruleName c!"ak")) = .ok t ↔
      ∃ n, s = List.replicate (n + 1) 'a' ∧ t = .rule c!"main" [.rule c!"ak" (List.replicate (n + 1) (.val c!"a"))] := by
  have split (s : Str) : ∃ n r, s = List.replicate n 'a' ++ r ∧ r.head? ≠ some 'a' := by
    induction s with
    | nil => exact ⟨0, [], rfl, by simp⟩
    | cons c s ih =>
      by_cases hc : c = 'a'
      · obtain ⟨n, r, rfl, h⟩ := ih
        exact ⟨n + 1, r, by rw [hc, List.replicate_succ]; rfl, h⟩
      · exact ⟨0, c :: s, rfl, by simpa using hc⟩
  refine ⟨_, recursion_rules, fun s t => ?_, fun s t => ?_⟩
  · rw [parse_iff]
    constructor
    · rintro ⟨_, h⟩
      obtain ⟨cs, h0, h1⟩ := inv_call (e := .ruleName c!"as") rfl h
      cases h0
      obtain ⟨n, r, rfl, hr⟩ := split s
      cases n with
      | zero =>
        have : ¬ c!"a" <+: r := by
          rintro ⟨q, rfl⟩
          exact hr rfl
        cases peg_det h1 (.call_fail (e := asBody) rfl (.or_next (.and_fail (.lit_fail _ _ this)) (.or_next (.lit_fail _ _ this) (.or_nil _))))
      | succ n =>
        cases peg_det h1 (as_ok rfl n r hr)
        exact ⟨n, by rw [List.append_nil], rfl⟩
    · rintro ⟨n, rfl, rfl⟩
      refine ⟨as_ascii _, .call_ok rfl ?_⟩
      have := as_ok (G := denotes (recursionRules.add c!"main" (.ruleName c!"as"))) rfl n [] (by simp)
      rwa [List.append_nil] at this
  · rw [parse_iff]
    constructor
    · rintro ⟨_, h⟩
      obtain ⟨cs, h0, h1⟩ := inv_call (e := .ruleName c!"ak") rfl h
      cases h0
      obtain ⟨cs, rfl, h2⟩ := inv_call (e := .rep (.simple (.literal c!"a")) 1 none) rfl h1
      obtain ⟨u, rfl, hu, _, hn, rfl⟩ := (reads_lit 'a').rep_inv h2
      have : u = List.replicate (u.length - 1 + 1) 'a' := by
        rw [Nat.sub_add_cancel hn]
        exact List.eq_replicate_iff.2 ⟨rfl, fun c hc => by simpa using hu c hc⟩
      refine ⟨u.length - 1, by rw [List.append_nil]; exact this, ?_⟩
      rw [this]
      simp
    · rintro ⟨n, rfl, rfl⟩
      refine ⟨as_ascii _, .call_ok rfl (.call_ok rfl ?_)⟩
      have := (reads_lit (G := denotes (recursionRules.add c!"main" (.ruleName c!"ak"))) 'a').rep 1
        (u := List.replicate (n + 1) 'a') (r := []) (fun c hc => by simp [List.eq_of_mem_replicate hc])
        (fun c q h => by cases h) (by simp)
      rwa [List.append_nil, List.map_replicate] at this

/-! ### Balanced parentheses -/

abbrev matchBody : Expr := .or [.and [.simple (.literal c!"("), .ruleName c!"match_par", .simple (.literal c!")")],
  .and [.simple (.literal c!"("), .simple (.literal c!")")]]

theorem matchPar_rules : rulesFromPeg matchPar = .ok ⟨[(c!"match_par", matchBody)]⟩ :=
  rules_of_doc (d := matchParDoc) (by decide +kernel) (by decide +kernel) (by decide +kernel) rfl

/-- the tree of `n + 1` pairs of parentheses -/
def pairTree : Nat → Node
  | 0 => .rule c!"match_par" [.val c!"(", .val c!")"]
  | n + 1 => .rule c!"match_par" [.val c!"(", pairTree n, .val c!")"]

def pairsOf (n : Nat) : Str := List.replicate n '(' ++ List.replicate n ')'

theorem pairsOf_succ (n : Nat) : pairsOf (n + 1) = '(' :: pairsOf n ++ c!")" := by
  simp only [pairsOf]
  rw [List.replicate_succ, List.replicate_succ']
  simp

theorem match_inv {G : Str → Option Expr} (hg : G c!"match_par" = some matchBody) : ∀ (k : Nat) {s r ns}, s.length ≤ k →
    Peg G (.ruleName c!"match_par") s (.ok r ns) → ∃ n, s = pairsOf (n + 1) ++ r ∧ ns = [pairTree n] := by
  intro k
  induction k with
  | zero =>
    intro s r ns hk h
    cases List.length_eq_zero_iff.mp (Nat.le_zero.mp hk)
    obtain ⟨cs, rfl, h2⟩ := inv_call hg h
    rcases inv_or_cons h2 with h3 | ⟨_, h4⟩
    · obtain ⟨q, n1, n2, h5, h4, rfl⟩ := inv_and h3
      cases (inv_lit h5).1
    · rcases inv_or_cons h4 with h5 | ⟨_, h6⟩
      · obtain ⟨q, n1, n2, h6, _, rfl⟩ := inv_and h5
        cases (inv_lit h6).1
      · exact (inv_or_nil h6).elim
  | succ k ih =>
    intro s r ns hk h
    obtain ⟨cs, rfl, h2⟩ := inv_call hg h
    rcases inv_or_cons h2 with h3 | ⟨_, h4⟩
    · obtain ⟨q, n1, n2, h11, h4, rfl⟩ := inv_and h3
      obtain ⟨rfl, rfl⟩ := inv_lit h11
      obtain ⟨q', n3, n4, h5, h6, rfl⟩ := inv_two h4
      obtain ⟨n, rfl, rfl⟩ := ih (by simp at hk; omega) h5
      obtain ⟨rfl, rfl⟩ := inv_lit h6
      refine ⟨n + 1, ?_, rfl⟩
      rw [pairsOf_succ (n + 1)]
      simp
    · rcases inv_or_cons h4 with h5 | ⟨_, h6⟩
      · obtain ⟨q, n1, n2, h7, h8, rfl⟩ := inv_two h5
        obtain ⟨rfl, rfl⟩ := inv_lit h7
        obtain ⟨rfl, rfl⟩ := inv_lit h8
        exact ⟨0, rfl, rfl⟩
      · exact (inv_or_nil h6).elim

theorem match_ok {G : Str → Option Expr} (hg : G c!"match_par" = some matchBody) (n : Nat) :
    ∀ r, Peg G (.ruleName c!"match_par") (pairsOf (n + 1) ++ r) (.ok r [pairTree n]) := by
  induction n with
  | zero =>
    intro r
    have none : Peg G (.ruleName c!"match_par") (c!")" ++ r) .fail :=
      .call_fail hg (.or_next (.and_fail (.lit_fail _ _ (by simp))) (.or_next (.and_fail (.lit_fail _ _ (by simp))) (.or_nil _)))
    exact .call_ok hg (.or_next (.and_tail_fail (.lit_ok c!"(" _) (.and_fail none))
      (.or_ok (.and_ok (.lit_ok c!"(" _) (.and_ok (.lit_ok c!")" r) (.and_nil _)))))
  | succ n ih =>
    intro r
    have h1 := ih (c!")" ++ r)
    rw [pairsOf_succ (n + 1)]
    have h2 := Peg.and_ok (.lit_ok c!"(" (pairsOf (n + 1) ++ (c!")" ++ r))) (.and_ok h1 (.and_ok (.lit_ok c!")" r) (.and_nil _)))
    have h3 : c!"(" ++ (pairsOf (n + 1) ++ (c!")" ++ r)) = '(' :: pairsOf (n + 1) ++ c!")" ++ r := by simp
    rw [h3] at h2
    exact .call_ok hg (.or_ok h2)

/-- **C64**: "recursion to match parenthesis": `match_par` (called from a rule `main`) reads as many closing
parentheses as opening ones, at least one, and nothing else. -/
theorem C64_match_par : ∃ R, rulesFromPeg matchPar = .ok R ∧ ∀ s t,
    parse s (R.add c!"main" (.ruleName c!"match_par")) = .ok t ↔
      ∃ n, s = List.replicate (n + 1) '(' ++ List.replicate (n + 1) ')' ∧ t = .rule c!"main" [pairTree n] := by
  refine ⟨_, matchPar_rules, fun s t => ?_⟩
  rw [parse_iff]
  constructor
  · rintro ⟨_, h⟩
    obtain ⟨cs, h0, h1⟩ := inv_call (e := .ruleName c!"match_par") rfl h
    cases h0
    obtain ⟨n, rfl, rfl⟩ := match_inv rfl _ (Nat.le_refl _) h1
    exact ⟨n, by rw [List.append_nil]; rfl, rfl⟩
  · rintro ⟨n, rfl, rfl⟩
    refine ⟨ascii_two (fun c hc => by rw [List.eq_of_mem_replicate hc]; decide) (fun c hc => by rw [List.eq_of_mem_replicate hc]; decide),
      .call_ok rfl ?_⟩
    have := match_ok (G := denotes (SetOfRules.add ⟨[(c!"match_par", matchBody)]⟩ c!"main" (.ruleName c!"match_par"))) rfl n []
    rwa [List.append_nil] at this

/-- `(())` but not `()()` -/
example : ∃ R, rulesFromPeg matchPar = .ok R ∧ (∃ t, parse c!"(())" (R.add c!"main" (.ruleName c!"match_par")) = .ok t) ∧
    ∀ t, parse c!"()()" (R.add c!"main" (.ruleName c!"match_par")) ≠ .ok t := by
  obtain ⟨R, h1, h2⟩ := C64_match_par
  refine ⟨R, h1, ⟨_, (h2 _ _).2 ⟨1, rfl, rfl⟩⟩, fun t h => ?_⟩
  obtain ⟨n, h3, _⟩ := (h2 _ _).1 h
  match n, h3 with
  | 0, h3 => cases h3
  | n + 1, h3 =>
    rw [List.replicate_succ, List.replicate_succ] at h3
    cases h3

abbrev parenthesisedBody : Expr := .or [.and [.simple (.literal c!"("), .ruleName c!"main", .simple (.literal c!")")],
  .simple (.literal c!"hello")]

theorem parenthesised_rules : rulesFromPeg parenthesised = .ok ⟨[(c!"main", parenthesisedBody)]⟩ :=
  rules_of_doc (d := parenthesisedDoc) (by decide +kernel) (by decide +kernel) (by decide +kernel) rfl

theorem parenthesised_inv {G : Str → Option Expr} (hg : G c!"main" = some parenthesisedBody) : ∀ (k : Nat) {s r ns}, s.length ≤ k →
    Peg G (.ruleName c!"main") s (.ok r ns) → ∃ n, s = parens n n ++ r ∧ ns = [nested n] := by
  intro k
  induction k with
  | zero =>
    intro s r ns hk h
    cases List.length_eq_zero_iff.mp (Nat.le_zero.mp hk)
    obtain ⟨cs, rfl, h2⟩ := inv_call hg h
    rcases inv_or_cons h2 with h3 | ⟨_, h4⟩
    · obtain ⟨q, n1, n2, h5, h4, rfl⟩ := inv_and h3
      cases (inv_lit h5).1
    · rcases inv_or_cons h4 with h5 | ⟨_, h6⟩
      · cases (inv_lit h5).1
      · exact (inv_or_nil h6).elim
  | succ k ih =>
    intro s r ns hk h
    obtain ⟨cs, rfl, h2⟩ := inv_call hg h
    rcases inv_or_cons h2 with h3 | ⟨_, h4⟩
    · obtain ⟨q, n1, n2, h11, h4, rfl⟩ := inv_and h3
      obtain ⟨rfl, rfl⟩ := inv_lit h11
      obtain ⟨q', n3, n4, h5, h6, rfl⟩ := inv_two h4
      obtain ⟨n, rfl, rfl⟩ := ih (by simp at hk; omega) h5
      obtain ⟨rfl, rfl⟩ := inv_lit h6
      refine ⟨n + 1, ?_, rfl⟩
      rw [parens_succ, parens_close]
      simp
    · rcases inv_or_cons h4 with h5 | ⟨_, h6⟩
      · obtain ⟨rfl, rfl⟩ := inv_lit h5
        exact ⟨0, rfl, rfl⟩
      · exact (inv_or_nil h6).elim

theorem parenthesised_ok {G : Str → Option Expr} (hg : G c!"main" = some parenthesisedBody) (n : Nat) :
    ∀ r, Peg G (.ruleName c!"main") (parens n n ++ r) (.ok r [nested n]) := by
  induction n with
  | zero =>
    intro r
    exact .call_ok hg (.or_next (.and_fail (.lit_fail _ _ (by simp [parens]))) (.or_ok (.lit_ok c!"hello" r)))
  | succ n ih =>
    intro r
    have h1 := ih (c!")" ++ r)
    rw [← List.append_assoc, ← parens_close] at h1
    rw [parens_succ]
    exact .call_ok hg (.or_ok (.and_ok (.lit_ok c!"(" _) (.and_ok h1 (.and_ok (.lit_ok c!")" r) (.and_nil _)))))

/-- **C64**: README.md:732-733 "will force to match parenthesis around the word 'hello'". It accepts what the
grammar with the message of its own accepts (C60), with the same trees. -/
theorem C64_parenthesised : ∃ R R', rulesFromPeg parenthesised = .ok R ∧ rulesFromPeg unbalanced = .ok R' ∧
    (∀ s t, parse s R = .ok t ↔ ∃ n, s = parens n n ∧ t = nested n) ∧
    ∀ s t, parse s R = .ok t ↔ parse s R' = .ok t := by
  obtain ⟨R', h1, h2, _⟩ := C60_unbalanced
  have key (s t) : parse s ⟨[(c!"main", parenthesisedBody)]⟩ = .ok t ↔ ∃ n, s = parens n n ∧ t = nested n := by
    rw [parse_iff]
    constructor
    · rintro ⟨_, h⟩
      obtain ⟨n, rfl, h0⟩ := parenthesised_inv rfl _ (Nat.le_refl _) h
      cases h0
      exact ⟨n, by rw [List.append_nil], rfl⟩
    · rintro ⟨n, rfl, rfl⟩
      have := parenthesised_ok (G := denotes ⟨[(c!"main", parenthesisedBody)]⟩) rfl n []
      rw [List.append_nil] at this
      exact ⟨parens_ascii n n, this⟩
  exact ⟨_, _, parenthesised_rules, h1, key, fun s t => (key s t).trans (h2 s t).symm⟩

end DP
