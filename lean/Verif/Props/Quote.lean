/-
C94: quoted strings with an escape character, `str = q (esc / !q .)* q` with `esc = b .` (src/lib.rs:486-521,
src/parser/expression/mod.rs:231-330).
-/
import Verif.Props.Split
import Verif.Props.Syntax

namespace DP
open Spec

/-! ### Quoted texts -/

/-- one step between the quotes: the escape character and any character, or another character than it and the quote -/
inductive QUnit
  | esc (c : Char)
  | plain (c : Char)

/-- its text -/
def QUnit.str (b : Char) : QUnit → Str
  | .esc c => [b, c]
  | .plain c => [c]

def QUnit.OK (q b : Char) : QUnit → Prop
  | .esc _ => True
  | .plain c => c ≠ q ∧ c ≠ b

/-- what it stands for -/
def QUnit.val : QUnit → Char
  | .esc c => c
  | .plain c => c

/-- the text of a quoted string -/
def quotedStr (q b : Char) (us : List QUnit) : Str := q :: us.flatMap (QUnit.str b) ++ [q]

/-- a text between quotes: the escape character before quotes and before itself -/
def quoteText (q b : Char) (v : Str) : Str := q :: v.flatMap (fun c => if c = q ∨ c = b then [b, c] else [c]) ++ [q]

/-- `main = str*`, `str = q (esc / !q .)* q`, `esc = b .` -/
def quoteRules (q b : Char) : SetOfRules :=
  ⟨[(c!"esc", .and [.simple (.literal [b]), .simple .dot]),
    (c!"str", .and [.simple (.literal [q]),
      .rep (.or [.ruleName c!"esc", .and [.not (.simple (.literal [q])), .simple .dot]]) 0 none, .simple (.literal [q])]),
    (c!"main", .rep (.ruleName c!"str") 0 none)]⟩

/-- the tree of a step -/
def QUnit.node (b : Char) : QUnit → Node
  | .esc c => .rule c!"esc" [.val [b], .val [c]]
  | .plain c => .val [c]

/-- the tree of a quoted string -/
def quotedNode (q b : Char) (us : List QUnit) : Node := .rule c!"str" (.val [q] :: us.map (QUnit.node b) ++ [.val [q]])

/-! ### Every text, scanned -/

/-- every text goes on to a quote, or to the end, or to an escape character at the end -/
theorem quote_scan {q b : Char} : ∀ n (s : Str), s.length ≤ n → ∃ us : List QUnit, (∀ u ∈ us, u.OK q b) ∧
    ((∃ r, s = us.flatMap (QUnit.str b) ++ q :: r) ∨ s = us.flatMap (QUnit.str b) ∨ s = us.flatMap (QUnit.str b) ++ [b] ∧ q ≠ b)
  | _, [], _ => ⟨[], by simp, by simp⟩
  | 0, _ :: _, h => by simp at h
  | n + 1, c :: s, h => by
    simp only [List.length_cons] at h
    by_cases hq : c = q
    · subst hq
      exact ⟨[], by simp, Or.inl ⟨s, rfl⟩⟩
    by_cases hb : c = b
    · subst hb
      cases s with
      | nil => exact ⟨[], by simp, Or.inr (Or.inr ⟨rfl, fun h => hq h.symm⟩)⟩
      | cons d s =>
        simp only [List.length_cons] at h
        obtain ⟨us, h1, h2⟩ := quote_scan (q := q) (b := c) n s (by omega)
        refine ⟨.esc d :: us, ?_, ?_⟩
        · intro u hu
          rcases List.mem_cons.1 hu with rfl | hu
          · trivial
          · exact h1 u hu
        · rcases h2 with ⟨r, rfl⟩ | h | ⟨rfl, hd⟩
          · exact Or.inl ⟨r, by simp [QUnit.str]⟩
          · exact Or.inr (Or.inl (by rw [List.flatMap_cons, ← h]; rfl))
          · exact Or.inr (Or.inr ⟨by simp [QUnit.str], hd⟩)
    · obtain ⟨us, h1, h2⟩ := quote_scan (q := q) (b := b) n s (by omega)
      refine ⟨.plain c :: us, ?_, ?_⟩
      · intro u hu
        rcases List.mem_cons.1 hu with rfl | hu
        · exact ⟨hq, hb⟩
        · exact h1 u hu
      · rcases h2 with ⟨r, rfl⟩ | h | ⟨rfl, hd⟩
        · exact Or.inl ⟨r, by simp [QUnit.str]⟩
        · exact Or.inr (Or.inl (by rw [List.flatMap_cons, ← h]; rfl))
        · exact Or.inr (Or.inr ⟨by simp [QUnit.str], hd⟩)

section
variable {q b : Char} {G : Str → Option Expr}

theorem char_misses {c d : Char} {s : Str} (h : d ≠ c) : Peg G (.simple (.literal [c])) (d :: s) .fail :=
  .lit_fail _ _ fun h' => h ((List.cons_prefix_cons.1 h').1).symm

theorem char_misses_nil {c : Char} : Peg G (.simple (.literal [c])) [] .fail :=
  .lit_fail _ _ fun h' => by simp at h'

abbrev stepExpr (q : Char) : Expr := .or [.ruleName c!"esc", .and [.not (.simple (.literal [q])), .simple .dot]]

/-- the steps before anything at which no step can be made -/
theorem steps_peg (hqb : q ≠ b) (he : G c!"esc" = some (.and [.simple (.literal [b]), .simple .dot])) {r : Str} {ns : List Node} {r' : Str}
    (hr : Peg G (.rep (stepExpr q) 0 none) r (.ok r' ns)) : ∀ us : List QUnit, (∀ u ∈ us, u.OK q b) →
    Peg G (.rep (stepExpr q) 0 none) (us.flatMap (QUnit.str b) ++ r) (.ok r' (us.map (QUnit.node b) ++ ns))
  | [], _ => hr
  | .esc c :: us, h => by
    have ih := steps_peg hqb he hr us fun u hu => h u (List.mem_cons_of_mem _ hu)
    have h1 : Peg G (stepExpr q) (b :: c :: (us.flatMap (QUnit.str b) ++ r))
        (.ok (us.flatMap (QUnit.str b) ++ r) [.rule c!"esc" ([.val [b]] ++ ([.val [c]] ++ []))]) :=
      .or_ok (.call_ok he (.and_ok (.lit_ok [b] _) (.and_ok (.dot_ok c _) (.and_nil _))))
    have h2 := Peg.rep_more (mn := 0) (mx := none) (by simp) h1 ih
    simpa [QUnit.str, QUnit.node] using h2
  | .plain c :: us, h => by
    have ih := steps_peg hqb he hr us fun u hu => h u (List.mem_cons_of_mem _ hu)
    have hc : c ≠ q ∧ c ≠ b := h (.plain c) (List.mem_cons_self)
    have h1 : Peg G (stepExpr q) (c :: (us.flatMap (QUnit.str b) ++ r))
        (.ok (us.flatMap (QUnit.str b) ++ r) ([] ++ ([.val [c]] ++ []))) :=
      .or_next (.call_fail he (.and_fail (char_misses hc.2)))
        (.or_ok (.and_ok (.not_fail (char_misses hc.1)) (.and_ok (.dot_ok c _) (.and_nil _))))
    have h2 := Peg.rep_more (mn := 0) (mx := none) (by simp) h1 ih
    simpa [QUnit.str, QUnit.node] using h2

theorem steps_stop (hqb : q ≠ b) (he : G c!"esc" = some (.and [.simple (.literal [b]), .simple .dot])) (r : Str) :
    Peg G (.rep (stepExpr q) 0 none) (q :: r) (.ok (q :: r) []) :=
  .rep_stop (by simp) (.or_next (.call_fail he (.and_fail (char_misses hqb)))
    (.or_next (.and_fail (.not_ok (.lit_ok [q] r))) (.or_nil _)))

theorem steps_end (he : G c!"esc" = some (.and [.simple (.literal [b]), .simple .dot])) :
    Peg G (.rep (stepExpr q) 0 none) [] (.ok [] []) :=
  .rep_stop (by simp) (.or_next (.call_fail he (.and_fail char_misses_nil))
    (.or_next (.and_tail_fail (.not_fail char_misses_nil) (.and_fail .dot_end)) (.or_nil _)))

theorem steps_dangling (hqb : q ≠ b) (he : G c!"esc" = some (.and [.simple (.literal [b]), .simple .dot])) :
    Peg G (.rep (stepExpr q) 0 none) [b] (.ok [] [.val [b]]) := by
  have h1 : Peg G (stepExpr q) [b] (.ok [] ([] ++ ([.val [b]] ++ []))) :=
    .or_next (.call_fail he (.and_tail_fail (.lit_ok [b] []) (.and_fail .dot_end)))
      (.or_ok (.and_ok (.not_fail (char_misses hqb.symm)) (.and_ok (.dot_ok b _) (.and_nil _))))
  exact .rep_more (mn := 0) (mx := none) (by simp) h1 (steps_end he)

abbrev strExpr (q : Char) : Expr := .and [.simple (.literal [q]), .rep (stepExpr q) 0 none, .simple (.literal [q])]

/-- a quoted string is read up to its last quote, whatever follows -/
theorem str_peg (hqb : q ≠ b) (he : G c!"esc" = some (.and [.simple (.literal [b]), .simple .dot]))
    (hs : G c!"str" = some (strExpr q)) {us : List QUnit} (h : ∀ u ∈ us, u.OK q b) (r : Str) :
    Peg G (.ruleName c!"str") (quotedStr q b us ++ r) (.ok r [quotedNode q b us]) := by
  have h1 := steps_peg hqb he (steps_stop hqb he r) us h
  have h2 := Peg.and_ok (.lit_ok [q] _) (.and_ok h1 (.and_ok (.lit_ok [q] r) (.and_nil _)))
  have h3 := Peg.call_ok hs h2
  simpa [quotedStr, quotedNode] using h3

/-- anything else is refused -/
theorem str_or_fail (hqb : q ≠ b) (he : G c!"esc" = some (.and [.simple (.literal [b]), .simple .dot]))
    (hs : G c!"str" = some (strExpr q)) (s : Str) :
    (∃ us r, (∀ u ∈ us, QUnit.OK q b u) ∧ s = quotedStr q b us ++ r) ∨ Peg G (.ruleName c!"str") s .fail := by
  cases s with
  | nil => exact Or.inr (.call_fail hs (.and_fail char_misses_nil))
  | cons c s =>
    by_cases hc : c = q
    · subst hc
      obtain ⟨us, h1, h2⟩ := quote_scan (q := c) (b := b) _ s (Nat.le_refl _)
      rcases h2 with ⟨r, rfl⟩ | h | ⟨h, _⟩
      · exact Or.inl ⟨us, r, h1, by simp [quotedStr]⟩
      · have h3 := steps_peg hqb he (steps_end (q := c) he) us h1
        rw [List.append_nil, ← h] at h3
        exact Or.inr (.call_fail hs (.and_tail_fail (.lit_ok [c] s) (.and_tail_fail h3 (.and_fail char_misses_nil))))
      · have h3 := steps_peg hqb he (steps_dangling hqb he) us h1
        rw [← h] at h3
        exact Or.inr (.call_fail hs (.and_tail_fail (.lit_ok [c] s) (.and_tail_fail h3 (.and_fail char_misses_nil))))
    · exact Or.inr (.call_fail hs (.and_fail (char_misses hc)))

/-- several quoted strings, as many as there are -/
theorem strs_peg (hqb : q ≠ b) (he : G c!"esc" = some (.and [.simple (.literal [b]), .simple .dot]))
    (hs : G c!"str" = some (strExpr q)) {r : Str} (hr : Peg G (.ruleName c!"str") r .fail) : ∀ uss : List (List QUnit),
    (∀ us ∈ uss, ∀ u ∈ us, QUnit.OK q b u) →
    Peg G (.rep (.ruleName c!"str") 0 none) (uss.flatMap (quotedStr q b) ++ r) (.ok r (uss.map (quotedNode q b)))
  | [], _ => .rep_stop (by simp) hr
  | us :: uss, h => by
    have ih := strs_peg hqb he hs hr uss fun x hx => h x (List.mem_cons_of_mem _ hx)
    have h1 := str_peg hqb he hs (h us (List.mem_cons_self)) (uss.flatMap (quotedStr q b) ++ r)
    have h2 := Peg.rep_more (mn := 0) (mx := none) (by simp) h1 ih
    simpa using h2

theorem strs_exist (hqb : q ≠ b) (he : G c!"esc" = some (.and [.simple (.literal [b]), .simple .dot]))
    (hs : G c!"str" = some (strExpr q)) : ∀ n (s : Str), s.length ≤ n → ∃ (uss : List (List QUnit)) (r : Str), (∀ us ∈ uss, ∀ u ∈ us, QUnit.OK q b u) ∧
      s = uss.flatMap (quotedStr q b) ++ r ∧ Peg G (.ruleName c!"str") r .fail := by
  intro n
  induction n with
  | zero =>
    intro s h
    rw [List.length_eq_zero_iff.1 (Nat.le_zero.1 h)]
    exact ⟨[], [], by simp, rfl, .call_fail hs (.and_fail char_misses_nil)⟩
  | succ n ih =>
    intro s h
    rcases str_or_fail hqb he hs s with ⟨us, r, h1, rfl⟩ | hf
    · obtain ⟨uss, r', h2, rfl, h3⟩ := ih r (by
        simp only [quotedStr, List.length_append, List.length_cons] at h
        omega)
      refine ⟨us :: uss, r', ?_, by simp, h3⟩
      intro x hx
      rcases List.mem_cons.1 hx with rfl | hx
      · exact h1
      · exact h2 x hx
    · exact ⟨[], s, by simp, rfl, hf⟩

end

theorem quote_bounds (q b : Char) : RulesBoundsOK (quoteRules q b) := by
  intro ne h
  simp only [quoteRules, List.mem_cons, List.not_mem_nil, or_false] at h
  have two : ∀ {x y : Expr}, BoundsOK x → BoundsOK y → ∀ e ∈ [x, y], BoundsOK e := by
    intro x y hx hy e he
    simp only [List.mem_cons, List.not_mem_nil, or_false] at he
    rcases he with rfl | rfl
    exacts [hx, hy]
  rcases h with rfl | rfl | rfl
  · exact .and (two (.simple _) (.simple _))
  · refine .and ?_
    intro e he
    simp only [List.mem_cons, List.not_mem_nil, or_false] at he
    rcases he with rfl | rfl | rfl
    · exact .simple _
    · exact .rep (.or (two (.ruleName _) (.and (two (.not (.simple _)) (.simple _))))) (by simp)
    · exact .simple _
  · exact .rep (.ruleName _) (by simp)

/-- **C94**: exactly the concatenations of quoted strings are accepted, and the tree has one `str` for each. -/
theorem C94_language {q b : Char} (hqb : q ≠ b) {s : Str} (ha : Ascii s) (t : Node) :
    parse s (quoteRules q b) = .ok t ↔ ∃ uss : List (List QUnit), (∀ us ∈ uss, ∀ u ∈ us, QUnit.OK q b u) ∧
      s = uss.flatMap (quotedStr q b) ∧ t = .rule c!"main" (uss.map (quotedNode q b)) := by
  rw [C02_parse_ok_iff_peg _ ha (quote_bounds q b)]
  have hm : grammar (quoteRules q b) c!"main" = some (.rep (.ruleName c!"str") 0 none) := rfl
  constructor
  · intro h
    obtain ⟨uss, r, h1, h2, h3⟩ := strs_exist (G := grammar (quoteRules q b)) hqb rfl rfl _ s (Nat.le_refl _)
    have h4 := strs_peg hqb rfl rfl h3 uss h1
    rw [← h2] at h4
    have h5 := peg_det h (.call_ok hm h4)
    cases h5
    exact ⟨uss, h1, by simpa using h2, rfl⟩
  · rintro ⟨uss, h1, rfl, rfl⟩
    have h4 := strs_peg (G := grammar (quoteRules q b)) hqb rfl rfl (r := []) (.call_fail rfl (.and_fail char_misses_nil)) uss h1
    rw [List.append_nil] at h4
    exact .call_ok hm h4

/-! ### Any texts can be quoted -/

/-- the steps for a text -/
def unitsOf (q b : Char) (v : Str) : List QUnit := v.map fun c => if c = q ∨ c = b then .esc c else .plain c

theorem unitsOf_ok (q b : Char) (v : Str) : ∀ u ∈ unitsOf q b v, u.OK q b := by
  intro u hu
  obtain ⟨c, _, rfl⟩ := List.mem_map.1 hu
  split
  · trivial
  · next h => exact ⟨fun e => h (Or.inl e), fun e => h (Or.inr e)⟩

theorem quotedStr_unitsOf (q b : Char) (v : Str) : quotedStr q b (unitsOf q b v) = quoteText q b v := by
  unfold quotedStr quoteText unitsOf
  congr 2
  rw [List.flatMap_map]
  congr 1
  funext c
  split <;> rfl

/-- what the tree of a quoted string says: the values between the quotes, with the second one of every `esc` -/
def readNode : Node → Str
  | .val v => v
  | .rule _ [_, .val v] => v
  | _ => []

def readQuoted : Node → Str
  | .rule _ ns => (ns.tail.dropLast).flatMap readNode
  | _ => []

theorem readQuoted_node (q b : Char) (us : List QUnit) : readQuoted (quotedNode q b us) = us.map QUnit.val := by
  unfold quotedNode readQuoted
  simp only [List.cons_append, List.tail_cons, List.dropLast_concat]
  induction us with
  | nil => rfl
  | cons u us ih =>
    rw [List.map_cons, List.flatMap_cons, ih]
    cases u <;> rfl

theorem ascii_quoteText {q b : Char} (hq : Ascii [q]) (hb : Ascii [b]) {v : Str} (h : Ascii v) : Ascii (quoteText q b v) := by
  have hq := hq q (by simp)
  have hb := hb b (by simp)
  intro c hc
  simp only [quoteText, List.mem_append, List.mem_cons, List.mem_flatMap, List.not_mem_nil, or_false] at hc
  rcases hc with (rfl | ⟨d, hd, hc⟩) | rfl
  · exact hq
  · split at hc
    · simp only [List.mem_cons, List.not_mem_nil, or_false] at hc
      rcases hc with rfl | rfl
      exacts [hb, h _ hd]
    · simp only [List.mem_cons, List.not_mem_nil, or_false] at hc
      subst hc
      exact h _ hd
  · exact hq

theorem val_unitsOf (q b : Char) (v : Str) : (unitsOf q b v).map QUnit.val = v := by
  unfold unitsOf
  rw [List.map_map]
  conv => rhs; rw [← List.map_id v]
  refine List.map_congr_left fun c _ => ?_
  simp only [Function.comp]
  split <;> rfl

/-- **C94**: every list of texts survives: quoted and put one after another, parsed, and read from the tree. -/
theorem C94_round_trip {q b : Char} (hqb : q ≠ b) (hq : Ascii [q]) (hb : Ascii [b]) {vs : List Str} (ha : ∀ v ∈ vs, Ascii v) :
    ∃ ns, parse (vs.flatMap (quoteText q b)) (quoteRules q b) = .ok (.rule c!"main" ns) ∧ ns.map readQuoted = vs := by
  have hs : vs.flatMap (quoteText q b) = (vs.map (unitsOf q b)).flatMap (quotedStr q b) := by
    rw [List.flatMap_map]
    congr 1
    funext v
    exact (quotedStr_unitsOf q b v).symm
  refine ⟨(vs.map (unitsOf q b)).map (quotedNode q b), ?_, ?_⟩
  · refine (C94_language hqb ?_ _).2 ⟨vs.map (unitsOf q b), ?_, hs, rfl⟩
    · intro c hc
      obtain ⟨v, hv, hc⟩ := List.mem_flatMap.1 hc
      exact ascii_quoteText hq hb (ha v hv) c hc
    · intro us hus
      obtain ⟨v, _, rfl⟩ := List.mem_map.1 hus
      exact unitsOf_ok q b v
  · rw [List.map_map, List.map_map]
    conv => rhs; rw [← List.map_id vs]
    refine List.map_congr_left fun v _ => ?_
    simp only [Function.comp]
    rw [readQuoted_node, val_unitsOf]
    rfl

/-- **C94**: so no two lists of texts are written alike, whatever they contain. -/
theorem C94_injective {q b : Char} (hqb : q ≠ b) (hq : Ascii [q]) (hb : Ascii [b]) {vs ws : List Str} (hv : ∀ v ∈ vs, Ascii v)
    (hw : ∀ w ∈ ws, Ascii w) (h : vs.flatMap (quoteText q b) = ws.flatMap (quoteText q b)) : vs = ws := by
  obtain ⟨ns, h1, h2⟩ := C94_round_trip hqb hq hb hv
  obtain ⟨ms, h3, h4⟩ := C94_round_trip hqb hq hb hw
  rw [h, h3] at h1
  cases h1
  rw [← h2, h4]

/-- **C94**: inside a larger text a quoted text ends at its own quote, whatever it contains and whatever follows. -/
theorem C94_ends {q b : Char} (hqb : q ≠ b) (hq : Ascii [q]) (hb : Ascii [b]) {v r : Str} (hv : Ascii v) (hr : Ascii r) :
    ∃ n, parse (quoteText q b v ++ r) ((quoteRules q b).add c!"main" (.and [.ruleName c!"str", .rep (.simple .dot) 0 none])) =
      .ok (.rule c!"main" (n :: r.map fun c => .val [c])) ∧ readQuoted n = v := by
  refine ⟨quotedNode q b (unitsOf q b v), ?_, by rw [readQuoted_node, val_unitsOf]⟩
  refine (addMain_ok (ascii_append (ascii_quoteText hq hb hv) hr)).2 ⟨quotedNode q b (unitsOf q b v) :: charNodes r, ?_, rfl⟩
  have h1 := str_peg (G := denotes ((quoteRules q b).add c!"main" (.and [.ruleName c!"str", .rep (.simple .dot) 0 none])))
    hqb rfl rfl (unitsOf_ok q b v) r
  rw [quotedStr_unitsOf] at h1
  exact startExpr_ok (x := .ruleName c!"str") h1

/-- the rules without the escape: `str = q (!q .)* q` -/
def bareRules (q : Char) : SetOfRules :=
  ⟨[(c!"main", .and [.simple (.literal [q]), .rep (.and [.not (.simple (.literal [q])), .simple .dot]) 0 none, .simple (.literal [q])])]⟩

/-- **C94**: without an escape a text between quotes is accepted exactly if it has no quote inside. -/
theorem C94_without_escape {q : Char} {v : Str} (ha : Ascii (q :: v ++ [q])) :
    (∃ t, parse (q :: v ++ [q]) (bareRules q) = .ok t) ↔ q ∉ v := by
  have hb : RulesBoundsOK (bareRules q) := by
    intro ne h
    simp only [bareRules, List.mem_cons, List.not_mem_nil, or_false] at h
    subst h
    refine .and ?_
    intro e he
    simp only [List.mem_cons, List.not_mem_nil, or_false] at he
    rcases he with rfl | rfl | rfl
    · exact .simple _
    · refine .rep (.and ?_) (by simp)
      intro e he
      simp only [List.mem_cons, List.not_mem_nil, or_false] at he
      rcases he with rfl | rfl
      exacts [.not (.simple _), .simple _]
    · exact .simple _
  have key : ∀ u r, q ∉ u → Peg (grammar (bareRules q)) (.ruleName c!"main") (q :: (u ++ q :: r))
      (.ok r [.rule c!"main" ([.val [q]] ++ (charNodes u ++ ([.val [q]] ++ [])))]) := by
    intro u r hu
    refine .call_ok rfl (.and_ok (.lit_ok [q] _) (.and_ok ?_ (.and_ok (.lit_ok [q] r) (.and_nil _))))
    refine skip_ok ?_ (Or.inl (lit_hits.2 ⟨r, rfl⟩))
    intro u1 u2 h hn
    refine lit_misses.2 ?_
    obtain ⟨c, u2, rfl⟩ := List.exists_cons_of_ne_nil hn
    intro hp
    have := (List.cons_prefix_cons.1 hp).1
    subst this
    exact hu (by rw [h]; simp)
  constructor
  · rintro ⟨t, ht⟩ hv
    obtain ⟨u, w, rfl, hu⟩ := List.eq_append_cons_of_mem hv
    rw [C02_parse_ok_iff_peg _ ha hb] at ht
    have h1 := key u (w ++ [q]) hu
    have h2 : q :: (u ++ q :: w) ++ [q] = q :: (u ++ q :: (w ++ [q])) := by simp
    rw [h2] at ht
    have h3 := peg_det ht h1
    simp at h3
  · intro hv
    exact ⟨_, (C02_parse_ok_iff_peg _ ha hb).2 (key v [] hv)⟩

/-- the grammar with double quotes and backslashes, as a PEG text; between single quotes the backslash would be doubled (C35) -/
theorem quote_rules_of_text : rulesFromPeg c!"main = str*\nstr = '\"' (esc / !'\"' .)* '\"'\nesc = \"\\\\\" .\n" = .ok (quoteRules '"' '\\') :=
  rulesFromPeg_of 300 (by decide +kernel)

/-- a text with a quote and a backslash in it -/
example : ∃ ns, parse c!"\"a\\\"b\"\"\\\\\"" (quoteRules '"' '\\') = .ok (.rule c!"main" ns) ∧ ns.map readQuoted = [c!"a\"b", c!"\\"] :=
  C94_round_trip (q := '"') (b := '\\') (vs := [c!"a\"b", c!"\\"]) (by decide) (by decide) (by decide) (by decide)

/-- a backslash before the last quote: not accepted -/
example : ∃ e, parse c!"\"a\\\"" (quoteRules '"' '\\') = .err e :=
  ⟨_, parse_of_fuel (f := 40) (x := .err ⟨⟨4, 0, 4, 0⟩, .literal c!"\"", c!"\"a\\\"", [], [], .normal⟩) (by decide +kernel) (by simp)⟩

end DP
