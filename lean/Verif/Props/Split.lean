import Verif.Props.Search
import Verif.Props.AstLaws
import Verif.Props.Program

/-!
# C90: field (sep field)* splits a text

The grammar of a list of fields, `main = field (sep field)*` with `field = (!sep .)*`, accepts every ASCII text, and the fields are the
pieces between the separators.
-/

namespace DP
open Spec

/-- the pieces of a text between the separators, from the left -/
inductive SplitAt (sep : Str) : Str → List Str → Prop
  | last {s} : ¬ sep <:+: s → SplitAt sep s [s]
  | more {p r ps} : (∀ u v, p ++ sep ++ r = u ++ sep ++ v → p.length ≤ u.length) → SplitAt sep r ps →
      SplitAt sep (p ++ sep ++ r) (p :: ps)

/-- `main = field (sep field)*`, `field = (!sep .)*` -/
def fieldRules (sep : Str) : SetOfRules :=
  ⟨[(c!"field", withoutExpr (.simple (.literal sep))),
    (c!"main", .and [.ruleName c!"field", .rep (.and [.simple (.literal sep), .ruleName c!"field"]) 0 none])]⟩

/-- a field with its characters -/
def fieldNode (p : Str) : Node := .rule c!"field" (p.map fun c => .val [c])

/-- the fields after the first, each with the separator before it -/
def furtherNodes (sep : Str) (ps : List Str) : List Node := ps.flatMap fun p => [.val sep, fieldNode p]

theorem pieces_exist {sep : Str} (hsep : sep ≠ []) : ∀ n s, s.length ≤ n → ∃ p ps, SplitAt sep s (p :: ps) := by
  intro n
  induction n with
  | zero =>
    intro s hs
    rw [List.length_eq_zero_iff.1 (Nat.le_zero.1 hs)]
    exact ⟨[], [], .last fun h => hsep (List.infix_nil.1 h)⟩
  | succ n ih =>
    intro s hs
    by_cases h : sep <:+: s
    · -- the first place
      have : ∃ k, ∃ u v, s = u ++ sep ++ v ∧ u.length = k := by
        obtain ⟨u, v, h⟩ := h
        exact ⟨_, u, v, h.symm, rfl⟩
      classical
      obtain ⟨u, v, h1, h2⟩ := Nat.find_spec this
      have hmin : ∀ u' v', s = u' ++ sep ++ v' → u.length ≤ u'.length := by
        intro u' v' h'
        rw [h2]
        exact Nat.find_min' this ⟨u', v', h', rfl⟩
      have hl := List.length_pos_iff.2 hsep
      obtain ⟨p, ps, hp⟩ := ih v (by
        have := congrArg List.length h1
        simp only [List.length_append] at this
        omega)
      subst h1
      exact ⟨u, p :: ps, .more hmin hp⟩
    · exact ⟨s, [], .last h⟩

section
variable {sep s : Str} {G : Str → Option Expr}

theorem lit_hits : MatchesAt G (.simple (.literal sep)) s ↔ sep <+: s := by
  constructor
  · rintro ⟨r, ns, h⟩
    cases h with
    | lit_ok _ _ => exact List.prefix_append _ _
  · rintro ⟨r, rfl⟩
    exact ⟨r, _, .lit_ok _ r⟩

theorem lit_misses : MissesAt G (.simple (.literal sep)) s ↔ ¬ sep <+: s := by
  constructor
  · intro h h'
    exact not_hits h (lit_hits.2 h')
  · exact fun h => Or.inl (.lit_fail _ _ h)

/-- the first field -/
theorem field_peg (hf : G c!"field" = some (withoutExpr (.simple (.literal sep)))) {p v : Str}
    (h1 : NowhereIn G (.simple (.literal sep)) p v) (h2 : sep <+: v ∨ v = [] ∧ ¬ sep <+: v) :
    Peg G (.ruleName c!"field") (p ++ v) (.ok v [fieldNode p]) := by
  refine .call_ok hf (skip_ok h1 ?_)
  rcases h2 with h | ⟨h, h'⟩
  · exact Or.inl (lit_hits.2 h)
  · exact Or.inr ⟨h, lit_misses.2 h'⟩

theorem free_last (h : ¬ sep <:+: s) : NowhereIn G (.simple (.literal sep)) s [] := by
  intro u1 u2 hu _
  rw [List.append_nil]
  exact lit_misses.2 fun h' => h (infix_iff_suffix.2 ⟨u1, u2, hu, h'⟩)

theorem free_first {p r : Str} (h : ∀ u v, p ++ sep ++ r = u ++ sep ++ v → p.length ≤ u.length) :
    NowhereIn G (.simple (.literal sep)) p (sep ++ r) := by
  intro u1 u2 hu hn
  refine lit_misses.2 ?_
  rintro ⟨q, hq⟩
  have := h u1 q (by rw [hu, List.append_assoc, List.append_assoc, List.append_assoc, hq])
  have := List.length_pos_iff.2 hn
  rw [hu, List.length_append] at *
  omega

theorem pieces_peg (hsep : sep ≠ []) (hf : G c!"field" = some (withoutExpr (.simple (.literal sep)))) {ps : List Str} (h : SplitAt sep s ps) :
    ∃ p ps' v, ps = p :: ps' ∧ Peg G (.ruleName c!"field") s (.ok v [fieldNode p]) ∧
      Peg G (.rep (.and [.simple (.literal sep), .ruleName c!"field"]) 0 none) v (.ok [] (furtherNodes sep ps')) := by
  have hn : ¬ sep <+: [] := fun h => hsep (List.prefix_nil.1 h)
  induction h with
  | @last s h =>
    refine ⟨s, [], [], rfl, ?_, .rep_stop (by simp) (.and_fail (.lit_fail _ _ hn))⟩
    have := field_peg hf (free_last h) (Or.inr ⟨rfl, hn⟩)
    rwa [List.append_nil] at this
  | @more p r ps h _ ih =>
    obtain ⟨q, ps', v, rfl, h1, h2⟩ := ih
    refine ⟨p, q :: ps', sep ++ r, rfl, ?_, ?_⟩
    · rw [List.append_assoc]
      exact field_peg hf (free_first h) (Or.inl (List.prefix_append _ _))
    · exact .rep_more (by simp) (.and_ok (.lit_ok sep r) (.and_ok h1 (.and_nil _))) h2

end

theorem field_bounds (sep : Str) : RulesBoundsOK (fieldRules sep) := by
  intro ne h
  simp only [fieldRules, List.mem_cons, List.not_mem_nil, or_false] at h
  rcases h with rfl | rfl
  · exact .rep (.and (by intro e h; simp only [List.mem_cons, List.not_mem_nil, or_false] at h; rcases h with rfl | rfl; exacts [.not (.simple _), .simple _])) (by simp)
  · refine .and ?_
    intro e h
    simp only [List.mem_cons, List.not_mem_nil, or_false] at h
    rcases h with rfl | rfl
    · exact .ruleName _
    · refine .rep (.and ?_) (by simp)
      intro e h
      simp only [List.mem_cons, List.not_mem_nil, or_false] at h
      rcases h with rfl | rfl
      · exact .simple _
      · exact .ruleName _

/-- the pieces, as a tree -/
theorem split_ok {sep s : Str} (hsep : sep ≠ []) (ha : Ascii s) {p ps} (h : SplitAt sep s (p :: ps)) :
    parse s (fieldRules sep) = .ok (.rule c!"main" (fieldNode p :: furtherNodes sep ps)) := by
  rw [C02_parse_ok_iff_peg _ ha (field_bounds sep)]
  obtain ⟨p', ps', v, he, h1, h2⟩ := pieces_peg (G := grammar (fieldRules sep)) hsep rfl h
  cases he
  refine .call_ok (e := .and [.ruleName c!"field", .rep (.and [.simple (.literal sep), .ruleName c!"field"]) 0 none]) rfl ?_
  have := Peg.and_ok h1 (.and_ok h2 (.and_nil _))
  rwa [List.append_nil] at this

/-- **C90**: every ASCII text is accepted, and the fields are its pieces. -/
theorem C90_split {sep s : Str} (hsep : sep ≠ []) (ha : Ascii s) :
    (∃ t, parse s (fieldRules sep) = .ok t) ∧
    ∀ t, parse s (fieldRules sep) = .ok t ↔
      ∃ p ps, SplitAt sep s (p :: ps) ∧ t = .rule c!"main" (fieldNode p :: ps.flatMap fun q => [.val sep, fieldNode q]) := by
  obtain ⟨p, ps, h⟩ := pieces_exist hsep _ s (Nat.le_refl _)
  have hp := split_ok hsep ha h
  refine ⟨⟨_, hp⟩, fun t => ⟨fun ht => ?_, ?_⟩⟩
  · rw [ht] at hp
    cases hp
    exact ⟨p, ps, h, rfl⟩
  · rintro ⟨p, ps, h, rfl⟩
    exact split_ok hsep ha h

/-! ### With compact -/

theorem compact_chars : ∀ u : Str, Node.compactNodes [] (u.map fun c => Node.val [c]) = if u = [] then [] else [.val u]
  | [] => by rw [List.map_nil, Node.compactNodes]; rfl
  | c :: u => by
    rw [List.map_cons, compactNodes_cons, compact_chars u]
    cases u with
    | nil => rfl
    | cons d u => rfl

/-- a field with its text -/
def textField (p : Str) : Node := .rule c!"field" (if p = [] then [] else [.val p])

theorem compact_further (sep : Str) : ∀ ps : List Str,
    Node.compactNodes [] (furtherNodes sep ps) = ps.flatMap fun p => [.val sep, textField p]
  | [] => by show Node.compactNodes [] [] = _; rw [Node.compactNodes]; rfl
  | p :: ps => by
    show Node.compactNodes [] (.val sep :: fieldNode p :: furtherNodes sep ps) = _
    rw [compactNodes_cons, compactNodes_cons, compact_further sep ps]
    unfold fieldNode
    rw [joinOn, joinOn, compact_chars]
    · rfl
    · intro w r h; cases h

/-- **C90**: after `compact` each field has its piece as its only value, or none if that is empty. -/
theorem C90_compact {sep s : Str} (hsep : sep ≠ []) (ha : Ascii s) {t : Node} (h : parse s (fieldRules sep) = .ok t) :
    ∃ p ps, SplitAt sep s (p :: ps) ∧
      t.compact = .rule c!"main" (textField p :: ps.flatMap fun q => [.val sep, textField q]) := by
  obtain ⟨p, ps, hp, rfl⟩ := ((C90_split hsep ha).2 t).1 h
  refine ⟨p, ps, hp, ?_⟩
  show Node.rule _ (Node.compactNodes [] (fieldNode p :: furtherNodes sep ps)) = _
  rw [compactNodes_cons, compact_further]
  unfold fieldNode
  rw [joinOn, compact_chars]
  rfl

/-- **C90**: the pieces put together again are the text. -/
theorem C90_join {sep s : Str} {ps : List Str} (h : SplitAt sep s ps) : sep.intercalate ps = s := by
  induction h with
  | last _ => simp [List.intercalate]
  | @more p r ps _ h ih =>
    cases h with
    | last _ => simp [List.intercalate] at ih ⊢
    | more _ _ => simp only [List.intercalate, List.intersperse_cons_cons, List.flatten_cons] at ih ⊢; rw [ih, ← List.append_assoc]

/-- **C90**: no piece contains the separator. -/
theorem C90_pieces_without {sep s : Str} {ps : List Str} (hsep : sep ≠ []) (h : SplitAt sep s ps) : ∀ p ∈ ps, ¬ sep <:+: p := by
  induction h with
  | last h => intro p hp; rw [List.mem_singleton.1 hp]; exact h
  | @more p r ps h _ ih =>
    intro q hq hs
    rcases List.mem_cons.1 hq with rfl | hq
    · obtain ⟨u, v, rfl⟩ := hs
      have := h u (v ++ sep ++ r) (by simp)
      have := List.length_pos_iff.2 hsep
      simp only [List.length_append] at *
      omega
    · exact ih q hq hs

/-- **C90**: with a separator of one character they are what `splitOn` gives. -/
theorem C90_char {d : Char} {s : Str} {ps : List Str} : SplitAt [d] s ps ↔ ps = s.splitOn d := by
  have key : ∀ {s ps}, SplitAt [d] s ps → ps = s.splitOn d := by
    intro s ps h
    induction h with
    | last h =>
      rw [List.splitOn_eq_singleton]
      intro hm
      obtain ⟨u, v, rfl⟩ := List.append_of_mem hm
      exact h ⟨u, v, by simp⟩
    | @more p r ps h _ ih =>
      rw [ih, List.append_assoc, List.singleton_append, List.splitOn_append_cons_self_of_not_mem]
      intro hm
      obtain ⟨u, v, rfl⟩ := List.append_of_mem hm
      have := h u (v ++ [d] ++ r) (by simp)
      simp only [List.length_append, List.length_cons] at this
      omega
  refine ⟨key, ?_⟩
  rintro rfl
  obtain ⟨p, ps, h⟩ := pieces_exist (sep := [d]) (by simp) _ s (Nat.le_refl _)
  rw [← key h]
  exact h

/-! ### Concretely -/

/-- the text of the grammar, with a comma -/
def commaText : Str := c!"main = field (',' field)*\nfield = (!',' .)*\n"

theorem comma_rules : rulesFromPeg commaText = .ok (fieldRules c!",") :=
  rulesFromPeg_of 200 (by decide +kernel)

/-- `a,,bc` has three fields, and the second is empty -/
example : ∃ R t, rulesFromPeg commaText = .ok R ∧ parse c!"a,,bc" R = .ok t ∧
    t.compact = .rule c!"main" [.rule c!"field" [.val c!"a"], .val c!",", .rule c!"field" [], .val c!",", .rule c!"field" [.val c!"bc"]] :=
  ⟨_, _, comma_rules, parse_of_fuel (f := 30) (x := .ok (.rule c!"main" [.rule c!"field" [.val c!"a"], .val c!",", .rule c!"field" [],
    .val c!",", .rule c!"field" [.val c!"b", .val c!"c"]])) (by decide +kernel) (by simp), by decide +kernel⟩

/-- **C90**: the text of the grammar read, a text parsed, its tree compacted: for every ASCII text. -/
theorem C90_commas {s : Str} (ha : Ascii s) : ∃ R t p ps, rulesFromPeg commaText = .ok R ∧ parse s R = .ok t ∧ s.splitOn ',' = p :: ps ∧
    t.compact = .rule c!"main" (textField p :: ps.flatMap fun q => [.val c!",", textField q]) := by
  have hn : c!"," ≠ [] := by simp
  obtain ⟨⟨t, ht⟩, _⟩ := C90_split hn ha
  obtain ⟨p, ps, h1, h2⟩ := C90_compact hn ha ht
  exact ⟨_, t, p, ps, comma_rules, ht, (C90_char.1 h1).symm, h2⟩

/-- overlapping separators: from the left -/
example : SplitAt c!"aa" c!"xaaab" [c!"x", c!"ab"] := by
  refine .more (p := c!"x") (r := c!"ab") ?_ (.last (by decide))
  intro u v h
  cases u with
  | nil => simp only [List.nil_append, List.cons_append, List.cons.injEq] at h; exact absurd h.1 (by decide)
  | cons _ _ => simp

end DP
