/-
C95: trees as texts. The trees of the crate (src/ast/mod.rs:37-45) can be written as texts with quoted strings and parentheses and
read again by the crate, with `node = str / list`, `list = '(' str node* ')'`.
-/
import Verif.Props.Quote

namespace DP
open Spec

mutual
/-- a tree as a text: values and names as quoted texts, a rule with its name and its children between parentheses -/
def treeText : Node → Str
  | .val v => quoteText '"' '\\' v
  | .rule n ns => '(' :: quoteText '"' '\\' n ++ treesText ns ++ [')']
  | .eof => c!"$"
def treesText : List Node → Str
  | [] => []
  | t :: ts => treeText t ++ treesText ts
end

/-- `main = node`, `node = str / list / eof`, `eof = '$'`, `list = '(' str node* ')'`, and quoted strings as in C94 -/
def treeRules : SetOfRules :=
  ⟨[(c!"eof", .simple (.literal c!"$")),
    (c!"esc", .and [.simple (.literal c!"\\"), .simple .dot]),
    (c!"str", .and [.simple (.literal c!"\""),
      .rep (.or [.ruleName c!"esc", .and [.not (.simple (.literal c!"\"")), .simple .dot]]) 0 none, .simple (.literal c!"\"")]),
    (c!"list", .and [.simple (.literal c!"("), .ruleName c!"str", .rep (.ruleName c!"node") 0 none, .simple (.literal c!")")]),
    (c!"node", .or [.ruleName c!"str", .ruleName c!"list", .ruleName c!"eof"]),
    (c!"main", .ruleName c!"node")]⟩

/-- the texts of the language: quoted strings, and lists of a quoted string and texts of the language -/
inductive UTree
  | leaf (us : List QUnit)
  | list (us : List QUnit) (ts : List UTree)
  | eof

mutual
def UTree.str : UTree → Str
  | .leaf us => quotedStr '"' '\\' us
  | .list us ts => '(' :: quotedStr '"' '\\' us ++ utreesStr ts ++ [')']
  | .eof => c!"$"
def utreesStr : List UTree → Str
  | [] => []
  | t :: ts => t.str ++ utreesStr ts
end

mutual
def UTree.OK : UTree → Prop
  | .leaf us => ∀ u ∈ us, QUnit.OK '"' '\\' u
  | .list us ts => (∀ u ∈ us, QUnit.OK '"' '\\' u) ∧ utreesOK ts
  | .eof => True
def utreesOK : List UTree → Prop
  | [] => True
  | t :: ts => t.OK ∧ utreesOK ts
end

mutual
/-- the tree that `parse` returns for it -/
def UTree.node : UTree → Node
  | .leaf us => .rule c!"node" [quotedNode '"' '\\' us]
  | .list us ts => .rule c!"node" [.rule c!"list" (.val c!"(" :: quotedNode '"' '\\' us :: utreesNodes ts ++ [.val c!")"])]
  | .eof => .rule c!"node" [.rule c!"eof" [.val c!"$"]]
def utreesNodes : List UTree → List Node
  | [] => []
  | t :: ts => t.node :: utreesNodes ts
end

section
variable {G : Str → Option Expr}

/-- the rules, whatever the others are -/
structure TreeG (G : Str → Option Expr) : Prop where
  eof : G c!"eof" = some (.simple (.literal ['$']))
  esc : G c!"esc" = some (.and [.simple (.literal ['\\']), .simple .dot])
  str : G c!"str" = some (strExpr '"')
  list : G c!"list" = some (.and [.simple (.literal ['(']), .ruleName c!"str", .rep (.ruleName c!"node") 0 none, .simple (.literal [')'])])
  node : G c!"node" = some (.or [.ruleName c!"str", .ruleName c!"list", .ruleName c!"eof"])

theorem str_misses (h : TreeG G) {c : Char} {s : Str} (hc : c ≠ '"') : Peg G (.ruleName c!"str") (c :: s) .fail :=
  .call_fail h.str (.and_fail (char_misses hc))

theorem node_misses (h : TreeG G) {c : Char} {s : Str} (hc : c ≠ '"') (hp : c ≠ '(') (hd : c ≠ '$') :
    Peg G (.ruleName c!"node") (c :: s) .fail :=
  .call_fail h.node (.or_next (str_misses h hc) (.or_next (.call_fail h.list (.and_fail (char_misses hp)))
    (.or_next (.call_fail h.eof (char_misses hd)) (.or_nil _))))

theorem node_misses_nil (h : TreeG G) : Peg G (.ruleName c!"node") [] .fail :=
  .call_fail h.node (.or_next (.call_fail h.str (.and_fail char_misses_nil))
    (.or_next (.call_fail h.list (.and_fail char_misses_nil)) (.or_next (.call_fail h.eof char_misses_nil) (.or_nil _))))

mutual
/-- a text of the language is read, whatever follows -/
theorem tree_peg (h : TreeG G) : ∀ t : UTree, t.OK → ∀ r, Peg G (.ruleName c!"node") (t.str ++ r) (.ok r [t.node])
  | .leaf us, hok, r => by
    rw [UTree.OK] at hok
    rw [UTree.str, UTree.node]
    exact .call_ok h.node (.or_ok (str_peg (by decide) h.esc h.str hok r))
  | .list us ts, hok, r => by
    rw [UTree.OK] at hok
    have h1 := trees_peg h ts hok.2 (')' :: r) (node_misses h (by decide) (by decide) (by decide))
    have h2 := str_peg (q := '"') (b := '\\') (by decide) h.esc h.str hok.1 (utreesStr ts ++ ')' :: r)
    have h3 := Peg.call_ok h.list (.and_ok (.lit_ok ['('] _) (.and_ok h2 (.and_ok h1 (.and_ok (.lit_ok [')'] r) (.and_nil _)))))
    have h4 := Peg.call_ok h.node (.or_next (str_misses h (c := '(') (by decide)) (.or_ok h3))
    rw [UTree.str, UTree.node]
    simpa using h4
  | .eof, _, r => by
    rw [UTree.str, UTree.node]
    exact .call_ok h.node (.or_next (str_misses h (by decide)) (.or_next (.call_fail h.list (.and_fail (char_misses (by decide))))
      (.or_ok (.call_ok h.eof (.lit_ok ['$'] r)))))
theorem trees_peg (h : TreeG G) : ∀ ts : List UTree, utreesOK ts → ∀ r, Peg G (.ruleName c!"node") r .fail →
    Peg G (.rep (.ruleName c!"node") 0 none) (utreesStr ts ++ r) (.ok r (utreesNodes ts))
  | [], _, r, hr => .rep_stop (by simp) hr
  | t :: ts, hok, r, hr => by
    rw [utreesOK] at hok
    have h1 := tree_peg h t hok.1 (utreesStr ts ++ r)
    have h2 := trees_peg h ts hok.2 r hr
    have h3 := Peg.rep_more (mn := 0) (mx := none) (by simp) h1 h2
    rw [utreesStr, utreesNodes]
    simpa using h3
end

/-- nothing else is read -/
theorem tree_or_fail (h : TreeG G) : ∀ n (s : Str), s.length ≤ n →
    ((∃ t r, UTree.OK t ∧ s = t.str ++ r) ∨ Peg G (.ruleName c!"node") s .fail) ∧
    ∃ ts r, utreesOK ts ∧ s = utreesStr ts ++ r ∧ Peg G (.ruleName c!"node") r .fail := by
  intro n
  induction n with
  | zero =>
    intro s hs
    rw [List.length_eq_zero_iff.1 (Nat.le_zero.1 hs)]
    exact ⟨Or.inr (node_misses_nil h), [], [], trivial, rfl, node_misses_nil h⟩
  | succ n ih =>
    intro s hs
    have first : (∃ t r, UTree.OK t ∧ s = t.str ++ r) ∨ Peg G (.ruleName c!"node") s .fail := by
      rcases str_or_fail (q := '"') (b := '\\') (by decide) h.esc h.str s with ⟨us, r, h1, rfl⟩ | hf
      · exact Or.inl ⟨.leaf us, r, h1, rfl⟩
      · cases s with
        | nil => exact Or.inr (node_misses_nil h)
        | cons c s =>
          by_cases hc : c = '('
          · subst hc
            have heof : ∀ {s}, Peg G (.or [.ruleName c!"eof"]) ('(' :: s) .fail :=
              .or_next (.call_fail h.eof (char_misses (by decide))) (.or_nil _)
            rcases str_or_fail (q := '"') (b := '\\') (by decide) h.esc h.str s with ⟨us, r, h1, rfl⟩ | hf'
            · simp only [List.length_cons, List.length_append] at hs
              obtain ⟨ts, r', h2, rfl, h3⟩ := (ih r (by omega)).2
              have h4 := trees_peg h ts h2 r' h3
              have h5 := str_peg (q := '"') (b := '\\') (by decide) h.esc h.str h1 (utreesStr ts ++ r')
              cases r' with
              | nil =>
                exact Or.inr (.call_fail h.node (.or_next hf (.or_next (.call_fail h.list (.and_tail_fail (.lit_ok ['('] _)
                  (.and_tail_fail h5 (.and_tail_fail h4 (.and_fail char_misses_nil))))) heof)))
              | cons d r' =>
                by_cases hd : d = ')'
                · subst hd
                  refine Or.inl ⟨.list us ts, r', ⟨h1, h2⟩, ?_⟩
                  rw [UTree.str]
                  simp
                · exact Or.inr (.call_fail h.node (.or_next hf (.or_next (.call_fail h.list (.and_tail_fail (.lit_ok ['('] _)
                    (.and_tail_fail h5 (.and_tail_fail h4 (.and_fail (char_misses hd)))))) heof)))
            · exact Or.inr (.call_fail h.node (.or_next hf (.or_next (.call_fail h.list (.and_tail_fail (.lit_ok ['('] s)
                (.and_fail hf'))) heof)))
          · by_cases hd : c = '$'
            · subst hd
              exact Or.inl ⟨.eof, s, trivial, rfl⟩
            · exact Or.inr (.call_fail h.node (.or_next hf (.or_next (.call_fail h.list (.and_fail (char_misses hc)))
                (.or_next (.call_fail h.eof (char_misses hd)) (.or_nil _)))))
    refine ⟨first, ?_⟩
    rcases first with ⟨t, r, h1, rfl⟩ | hf
    · have hl : 1 ≤ t.str.length := by cases t <;> simp [UTree.str, quotedStr]
      obtain ⟨ts, r', h2, rfl, h3⟩ := (ih r (by simp only [List.length_append] at hs; omega)).2
      exact ⟨t :: ts, r', ⟨h1, h2⟩, by rw [utreesStr]; simp, h3⟩
    · exact ⟨[], s, trivial, rfl, hf⟩

end

theorem tree_bounds : RulesBoundsOK treeRules := by
  intro ne h
  simp only [treeRules, List.mem_cons, List.not_mem_nil, or_false] at h
  rcases h with rfl | rfl | rfl | rfl | rfl | rfl
  · exact .simple _
  · exact quote_bounds '"' '\\' (c!"esc", _) (by simp [quoteRules])
  · exact quote_bounds '"' '\\' (c!"str", _) (by simp [quoteRules])
  · refine .and ?_
    intro e he
    simp only [List.mem_cons, List.not_mem_nil, or_false] at he
    rcases he with rfl | rfl | rfl | rfl
    exacts [.simple _, .ruleName _, .rep (.ruleName _) (by simp), .simple _]
  · refine .or ?_
    intro e he
    simp only [List.mem_cons, List.not_mem_nil, or_false] at he
    rcases he with rfl | rfl | rfl
    exacts [.ruleName _, .ruleName _, .ruleName _]
  · exact .ruleName _

theorem treeG : TreeG (grammar treeRules) := ⟨rfl, rfl, rfl, rfl, rfl⟩

/-- **C95**: the accepted texts are the quoted strings and the lists, and the tree mirrors them. -/
theorem C95_language {s : Str} (ha : Ascii s) (t : Node) :
    parse s treeRules = .ok t ↔ ∃ u : UTree, u.OK ∧ s = u.str ∧ t = .rule c!"main" [u.node] := by
  rw [C02_parse_ok_iff_peg _ ha tree_bounds]
  have hm : grammar treeRules c!"main" = some (.ruleName c!"node") := rfl
  constructor
  · intro h
    rcases (tree_or_fail treeG _ s (Nat.le_refl _)).1 with ⟨u, r, h1, rfl⟩ | hf
    · have h2 := peg_det h (.call_ok hm (tree_peg treeG u h1 r))
      cases h2
      exact ⟨u, h1, by simp, rfl⟩
    · have h2 := peg_det h (.call_fail hm hf)
      cases h2
  · rintro ⟨u, h1, rfl, rfl⟩
    have := tree_peg treeG u h1 []
    rw [List.append_nil] at this
    exact .call_ok hm this

/-! ### The trees of the crate -/

/-- the name of a list -/
def readHead : List Node → Str
  | _ :: n :: _ => readQuoted n
  | _ => []

mutual
/-- what a tree with `node`, `list`, `eof` and `str` stands for -/
def readTree : Node → Node
  | .rule _ [.rule k ns] =>
    if k = c!"str" then .val (readQuoted (.rule k ns))
    else if k = c!"eof" then .eof
    else .rule (readHead ns) ((readTrees ns).drop 2).dropLast
  | _ => .eof
def readTrees : List Node → List Node
  | [] => []
  | n :: ns => readTree n :: readTrees ns
end

mutual
def unitTree : Node → UTree
  | .val v => .leaf (unitsOf '"' '\\' v)
  | .rule n ns => .list (unitsOf '"' '\\' n) (unitTrees ns)
  | .eof => .eof
def unitTrees : List Node → List UTree
  | [] => []
  | t :: ts => unitTree t :: unitTrees ts
end

mutual
theorem unitTree_ok : ∀ t, (unitTree t).OK
  | .val v => by rw [unitTree, UTree.OK]; exact unitsOf_ok _ _ v
  | .rule n ns => by rw [unitTree, UTree.OK]; exact ⟨unitsOf_ok _ _ n, unitTrees_ok ns⟩
  | .eof => by rw [unitTree, UTree.OK]; trivial
theorem unitTrees_ok : ∀ ts, utreesOK (unitTrees ts)
  | [] => trivial
  | t :: ts => ⟨unitTree_ok t, unitTrees_ok ts⟩
end

mutual
theorem unitTree_str : ∀ t, (unitTree t).str = treeText t
  | .val v => by rw [unitTree, UTree.str, treeText, quotedStr_unitsOf]
  | .rule n ns => by rw [unitTree, UTree.str, treeText, quotedStr_unitsOf, unitTrees_str ns]
  | .eof => by rw [unitTree, UTree.str, treeText]
theorem unitTrees_str : ∀ ts, utreesStr (unitTrees ts) = treesText ts
  | [] => rfl
  | t :: ts => by rw [unitTrees, utreesStr, treesText, unitTree_str t, unitTrees_str ts]
end

theorem readTrees_append : ∀ ns ms, readTrees (ns ++ ms) = readTrees ns ++ readTrees ms
  | [], _ => rfl
  | n :: ns, ms => by rw [List.cons_append, readTrees, readTrees, readTrees_append ns ms, List.cons_append]

mutual
theorem readTree_unit : ∀ t, readTree (unitTree t).node = t
  | .val v => by
    rw [unitTree, UTree.node, quotedNode, readTree]
    have := readQuoted_node '"' '\\' (unitsOf '"' '\\' v)
    rw [val_unitsOf, quotedNode] at this
    rw [if_pos rfl, this]
  | .rule n ns => by
    rw [unitTree, UTree.node, readTree, if_neg (by decide), if_neg (by decide), List.cons_append, List.cons_append, readTrees, readTrees,
      readHead, readQuoted_node, val_unitsOf, readTrees_append, readTrees_unit ns]
    simp [readTrees]
  | .eof => by
    rw [unitTree, UTree.node, readTree, if_neg (by decide), if_pos rfl]
theorem readTrees_unit : ∀ ts, readTrees (utreesNodes (unitTrees ts)) = ts
  | [] => rfl
  | t :: ts => by rw [unitTrees, utreesNodes, readTrees, readTree_unit t, readTrees_unit ts]
end

mutual
/-- all the texts in a tree are ASCII -/
def asciiTree : Node → Prop
  | .val v => Ascii v
  | .rule n ns => Ascii n ∧ asciiTrees ns
  | .eof => True
def asciiTrees : List Node → Prop
  | [] => True
  | t :: ts => asciiTree t ∧ asciiTrees ts
end

mutual
theorem ascii_treeText : ∀ t, asciiTree t → Ascii (treeText t)
  | .val v, h => by
    rw [asciiTree] at h
    rw [treeText]
    exact ascii_quoteText (by decide) (by decide) h
  | .rule n ns, h => by
    rw [asciiTree] at h
    rw [treeText]
    exact ascii_append (ascii_append (ascii_consC (by decide) (ascii_quoteText (by decide) (by decide) h.1)) (ascii_treesText ns h.2)) (by decide)
  | .eof, _ => by rw [treeText]; decide
theorem ascii_treesText : ∀ ts, asciiTrees ts → Ascii (treesText ts)
  | [], _ => by rw [treesText]; decide
  | t :: ts, h => by
    rw [asciiTrees] at h
    rw [treesText]
    exact ascii_append (ascii_treeText t h.1) (ascii_treesText ts h.2)
end

/-- **C95**: every tree can be written as a text and read again: `parse` accepts the text, and the tree can be read from its tree. -/
theorem C95_round_trip {t : Node} (h : asciiTree t) :
    ∃ n, parse (treeText t) treeRules = .ok (.rule c!"main" [n]) ∧ readTree n = t :=
  ⟨(unitTree t).node, (C95_language (ascii_treeText t h) _).2 ⟨unitTree t, unitTree_ok t, (unitTree_str t).symm, rfl⟩, readTree_unit t⟩

/-- **C95**: so different trees have different texts. -/
theorem C95_injective {t u : Node} (ht : asciiTree t) (hu : asciiTree u) (h : treeText t = treeText u) : t = u := by
  obtain ⟨n, h1, h2⟩ := C95_round_trip ht
  obtain ⟨m, h3, h4⟩ := C95_round_trip hu
  rw [h, h3] at h1
  cases h1
  rw [← h2, h4]

/-- the grammar as a PEG text -/
theorem tree_rules_of_text : rulesFromPeg c!"main = node\nnode = str / list / eof\nlist = '(' str node* ')'\nstr = '\"' (esc / !'\"' .)* '\"'\nesc = \"\\\\\" .\neof = '$'\n" = .ok treeRules :=
  rulesFromPeg_of 400 (by decide +kernel)

/-- **C95** on the result of a parse, such as `main` with a value with a quote in it -/
example : treeText (.rule c!"main" [.val c!"\"", .rule c!"a" []]) = c!"(\"main\"\"\\\"\"(\"a\"))" ∧
    ∃ n, parse c!"(\"main\"\"\\\"\"(\"a\"))" treeRules = .ok (.rule c!"main" [n]) ∧ readTree n = .rule c!"main" [.val c!"\"", .rule c!"a" []] :=
  ⟨by decide, C95_round_trip (t := .rule c!"main" [.val c!"\"", .rule c!"a" []]) (by simp only [asciiTree, asciiTrees]; decide)⟩

end DP
