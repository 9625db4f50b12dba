/-
The shape of the nodes for symbols, escapes and classes in the tree of a PEG text.
-/
import Verif.Proofs.PegTree
import Verif.Spec.PegNotation

namespace DP
open Spec PegRules

theorem inClass_word (c : Char) :
    InClass c!"_" [('a', 'z'), ('A', 'Z'), ('0', '9')] c ↔ WordChar c := by
  simp only [InClass, WordChar, List.mem_cons, List.not_mem_nil, or_false, exists_eq_or_imp,
    exists_eq_left]
  rfl

theorem inClass_word2 (c : Char) :
    InClass c!"_'\"" [('a', 'z'), ('A', 'Z'), ('0', '9')] c ↔ WordChar c ∨ c = '\'' ∨ c = '"' := by
  rw [← inClass_word]
  simp only [InClass, List.mem_cons, List.not_mem_nil, or_false]
  generalize (∃ r : Char × Char, _) = P
  tauto

theorem star_class {G cs rs s nss r} (h : Star G (.simple (.mtch cs rs)) s nss r) :
    ∃ l : Str, s = l ++ r ∧ nss.flatten = l.map (fun c => Node.val [c]) ∧ ∀ c ∈ l, InClass cs rs c := by
  induction h with
  | nil s => exact ⟨[], rfl, rfl, by simp⟩
  | cons h1 _ ih =>
    obtain ⟨c, h2, h3, h4⟩ := inv_class h1
    obtain ⟨l, h5, h6, h7⟩ := ih
    refine ⟨c :: l, by rw [h2, h5]; rfl, by rw [List.flatten_cons, h6, h4]; rfl, ?_⟩
    intro d hd
    rcases List.mem_cons.mp hd with rfl | hd
    · exact h3
    · exact h7 d hd

theorem flatten_singletons (l : Str) : (l.map (fun c => [c])).flatten = l := by
  induction l with
  | nil => rfl
  | cons c l ih => rw [List.map_cons, List.flatten_cons, ih]; rfl

theorem flatList_chars {l : Str} (h : l ≠ []) : flatList (l.map (fun c => Node.val [c])) = [.val l] := by
  have h1 : l.map (fun c => Node.val [c]) = (l.map (fun c => [c])).map Node.val := by simp
  rw [h1, flatList_allvals (by simpa using h), flatten_singletons]

/-- the children of a `symbol` node -/
theorem symbol_shape {s r cs} (h : Peg GP e_symbol s (.ok r cs)) :
    ∃ v, ValidSymbol v ∧ s = v ++ r ∧ flatList cs = [.val v] := by
  obtain ⟨q, n1, n2, h1, h2, rfl⟩ := inv_and h
  obtain ⟨c, rfl, hc, rfl⟩ := inv_class h1
  obtain ⟨q2, n3, n4, h3, h4, rfl⟩ := inv_and h2
  obtain ⟨rfl, rfl⟩ := inv_and_nil h4
  obtain ⟨nss, h5, rfl, _, _⟩ := inv_rep h3
  obtain ⟨l, rfl, h7, h8⟩ := star_class h5
  refine ⟨c :: l, ⟨c, l, rfl, (inClass_word c).1 hc, fun d hd => (inClass_word2 d).1 (h8 d hd)⟩, rfl, ?_⟩
  rw [h7, List.append_nil]
  exact flatList_chars (l := c :: l) (by simp)

/-- an upper case hexadecimal digit -/
def HexChar (c : Char) : Prop := ('0' ≤ c ∧ c ≤ '9') ∨ ('A' ≤ c ∧ c ≤ 'F')

theorem inClass_hex (c : Char) : InClass c!"" [('0', '9'), ('A', 'F')] c ↔ HexChar c := by
  simp only [InClass, HexChar, List.not_mem_nil, false_or, List.mem_cons, or_false, exists_eq_or_imp,
    exists_eq_left]
  rfl

/-- the children of a `hex_char` node -/
theorem hex_shape {s r cs} (h : Peg GP e_hex_char s (.ok r cs)) :
    ∃ a b, HexChar a ∧ HexChar b ∧ flatList cs = [.val ['\\', '0', 'x', a, b]] := by
  obtain ⟨q, n1, n2, h1, h2, rfl⟩ := inv_and h
  obtain ⟨_, rfl⟩ := inv_lit h1
  obtain ⟨q2, n3, n4, h3, h4, rfl⟩ := inv_and h2
  obtain ⟨a, _, ha, rfl⟩ := inv_class h3
  obtain ⟨q3, n5, n6, h5, h6, rfl⟩ := inv_and h4
  obtain ⟨b, _, hb, rfl⟩ := inv_class h5
  obtain ⟨_, rfl⟩ := inv_and_nil h6
  refine ⟨a, b, (inClass_hex a).1 ha, (inClass_hex b).1 hb, ?_⟩
  exact flatList_allvals (vs := [c!"\\0x", [a], [b]]) (by simp)

/-! ### Classes -/

theorem mchars_star {s nss r} (h : Star GP (.and [.not (.simple (.literal c!"]")),
      .not (.and [.simple .dot, .simple (.literal c!"-")]), .simple .dot]) s nss r) :
    ∃ l : Str, s = l ++ r ∧ nss.flatten = l.map (fun c => Node.val [c]) ∧ nss.length = l.length ∧
      ']' ∉ l ∧ '-' ∉ l.tail ∧ (l ≠ [] → ∀ q, r ≠ '-' :: q) := by
  induction h with
  | nil s => exact ⟨[], rfl, rfl, rfl, by simp, by simp, by simp⟩
  | @cons s q r ns nss h1 h1' ih =>
    obtain ⟨q1, n1, n2, h2, h3, rfl⟩ := inv_and h1
    obtain ⟨rfl, rfl, h4⟩ := inv_not h2
    obtain ⟨q1, n3, n4, h5, h6, rfl⟩ := inv_and h3
    obtain ⟨rfl, rfl, h7⟩ := inv_not h5
    obtain ⟨q2, n5, n6, h8, h9, rfl⟩ := inv_and h6
    obtain ⟨c, rfl, rfl⟩ := inv_dot h8
    obtain ⟨rfl, rfl⟩ := inv_and_nil h9
    obtain ⟨l, rfl, h11, hl, h12, h13, h14⟩ := ih
    have hc : c ≠ ']' := by
      rintro rfl
      exact h4 (l ++ r) _ (Peg.lit_ok c!"]" (l ++ r))
    have hd : ∀ x, l ++ r ≠ '-' :: x := by
      intro x e
      refine h7 x _ (.and_ok (.dot_ok c _) (.and_ok (ns := [.val c!"-"]) (r := x) ?_ (.and_nil x)))
      rw [e]
      exact .lit_ok c!"-" x
    refine ⟨c :: l, rfl, ?_, by simp [hl], ?_, ?_, ?_⟩
    · rw [List.flatten_cons, h11]; rfl
    · simp only [List.mem_cons, not_or]
      exact ⟨fun e => hc e.symm, h12⟩
    · rw [List.tail_cons]
      cases l with
      | nil => simp
      | cons d l =>
        simp only [List.mem_cons, not_or]
        exact ⟨fun e => hd (l ++ r) (by rw [← e]; rfl), h13⟩
    · intro _ x e
      cases l with
      | nil => exact hd x (by simpa using e)
      | cons d l => exact h14 (by simp) x e

/-- the children of an `mchars` node -/
theorem mchars_shape {s r cs} (h : Peg GP e_mchars s (.ok r cs)) :
    ∃ l : Str, s = l ++ r ∧ l ≠ [] ∧ flatList cs = [.val l] ∧ ']' ∉ l ∧ '-' ∉ l.tail ∧ ∀ q, r ≠ '-' :: q := by
  obtain ⟨nss, h5, rfl, h6, _⟩ := inv_rep h
  obtain ⟨l, rfl, h7, h8, h9, h10, h11⟩ := mchars_star h5
  have hl : l ≠ [] := by
    intro e; rw [e] at h8; simp at h8; rw [h8] at h6; simp at h6
  exact ⟨l, rfl, hl, by rw [h7]; exact flatList_chars hl, h9, h10, h11 hl⟩

/-- the children of an `mbetween` node -/
theorem mbetween_shape {s r cs} (h : Peg GP e_mbetween s (.ok r cs)) :
    ∃ a b, s = a :: '-' :: b :: r ∧ flatList cs = [.val [a, '-', b]] := by
  obtain ⟨q, n1, n2, h1, h2, rfl⟩ := inv_and h
  obtain ⟨a, rfl, rfl⟩ := inv_dot h1
  obtain ⟨q2, n3, n4, h3, h4, rfl⟩ := inv_and h2
  obtain ⟨rfl, rfl⟩ := inv_lit h3
  obtain ⟨q3, n5, n6, h5, h6, rfl⟩ := inv_and h4
  obtain ⟨b, rfl, rfl⟩ := inv_dot h5
  obtain ⟨rfl, rfl⟩ := inv_and_nil h6
  exact ⟨a, b, rfl, flatList_allvals (vs := [[a], c!"-", [b]]) (by simp)⟩

/-- a range, in the flat AST -/
def rangeFlat (p : Char × Char) : List FNode :=
  [.beginRule c!"mbetween", .val [p.1, '-', p.2], .endRule c!"mbetween"]

/-- ranges, in the flat AST -/
def rangesFlat (rs : List (Char × Char)) : List FNode := rs.flatMap rangeFlat

/-- what is between the brackets of a class, in the flat AST -/
def classFlat (cs : Str) (rs : List (Char × Char)) : List FNode :=
  (if cs = [] then [] else [.beginRule c!"mchars", .val cs, .endRule c!"mchars"]) ++ rangesFlat rs

/-- what is between the brackets of a class, as text -/
def rangesText (rs : List (Char × Char)) : Str := rs.flatMap (fun p => [p.1, '-', p.2])

theorem flatRule_mbetween {cs : List Node} {a b} (h : flatList cs = [.val [a, '-', b]]) :
    flatRule c!"mbetween" cs = rangeFlat (a, b) := by
  unfold flatRule
  rw [if_neg (by decide), h]
  rfl

theorem ranges_star {s nss r} (h : Star GP (.ruleName c!"mbetween") s nss r) :
    ∃ rs : List (Char × Char), s = rangesText rs ++ r ∧ rs.length = nss.length ∧
      (∀ rest, flatList (nss.flatten ++ rest) = rangesFlat rs ++ flatList rest) := by
  induction h with
  | nil s => exact ⟨[], rfl, rfl, fun _ => rfl⟩
  | cons h1 _ ih =>
    obtain ⟨rs, rfl, h3, h4⟩ := ih
    obtain ⟨cs, rfl, h5⟩ := inv_call gp_mbetween h1
    obtain ⟨a, b, rfl, h6⟩ := mbetween_shape h5
    refine ⟨(a, b) :: rs, rfl, by simp [h3], ?_⟩
    intro rest
    rw [List.flatten_cons, List.append_assoc, List.singleton_append, flatList_rule, h4, flatRule_mbetween h6]
    simp [rangesFlat]

/-- the children of a `match` node -/
theorem match_shape {s r ns} (ha : Ascii s) (h : Peg GP e_match s (.ok r ns)) :
    ∃ cs rs, ValidClass cs rs ∧ s = '[' :: cs ++ rangesText rs ++ ']' :: r ∧
      flatList ns = .val c!"[" :: classFlat cs rs ++ [.val c!"]"] := by
  obtain ⟨q, n1, n2, h1, h2, rfl⟩ := inv_and h
  obtain ⟨rfl, rfl⟩ := inv_lit h1
  obtain ⟨q2, n3, n4, h3, h4, rfl⟩ := inv_and h2
  obtain ⟨q3, n5, n6, h5, h6, rfl⟩ := inv_and h4
  obtain ⟨rfl, rfl⟩ := inv_lit h5
  obtain ⟨rfl, rfl⟩ := inv_and_nil h6
  have hasc : ∀ cs rs, q = cs ++ (rangesText rs ++ (c!"]" ++ q3)) →
      Ascii cs ∧ ∀ p ∈ rs, p.1.toNat < 128 ∧ p.2.toNat < 128 := by
    intro cs rs hq
    subst hq
    refine ⟨fun c hc => ha c (by simp [hc]), ?_⟩
    intro p hp
    have hm : ∀ x ∈ [p.1, '-', p.2], x ∈ rangesText rs := fun x hx => List.mem_flatMap.mpr ⟨p, hp, hx⟩
    exact ⟨ha _ (by have := hm p.1 (by simp); simp [this]), ha _ (by have := hm p.2 (by simp); simp [this])⟩
  rcases inv_or_cons h3 with h7 | ⟨_, h7⟩
  · obtain ⟨q4, n7, n8, h8, h9, rfl⟩ := inv_and h7
    obtain ⟨q5, n9, n10, h10, h11, rfl⟩ := inv_and h9
    obtain ⟨rfl, rfl⟩ := inv_and_nil h11
    obtain ⟨cs, rfl, h12⟩ := inv_call gp_mchars h8
    obtain ⟨l, rfl, hl, h13, h14, h15, h16⟩ := mchars_shape h12
    obtain ⟨nss, h17, rfl, _, _⟩ := inv_rep h10
    obtain ⟨rs, rfl, _, h18⟩ := ranges_star h17
    refine ⟨l, rs, ⟨Or.inl hl, hasc l rs rfl, h14, h15, ?_⟩, by simp, ?_⟩
    · intro _ p hp
      cases rs with
      | nil => simp at hp
      | cons x rs =>
        simp only [List.head?_cons, Option.mem_some_iff] at hp
        subst hp
        intro e
        exact h16 ('-' :: x.2 :: (rangesText rs ++ (c!"]" ++ q3))) (by simp [rangesText, e])
    · have h19 := h18 [.val c!"]"]
      simp only [List.append_nil, List.nil_append, List.cons_append] at h19 ⊢
      rw [flatList_val_rule, h19, flatList_val (by simp), flatList_nil]
      simp only [classFlat, if_neg hl, flatRule]
      rw [if_neg (by decide), h13]
      simp
  · rcases inv_or_cons h7 with h8 | ⟨_, h8⟩
    · obtain ⟨nss, h17, rfl, hlen, _⟩ := inv_rep h8
      obtain ⟨rs, rfl, h19, h18⟩ := ranges_star h17
      have hrs : rs ≠ [] := by intro e; rw [e] at h19; simp at h19; rw [← h19] at hlen; simp at hlen
      refine ⟨[], rs, ⟨Or.inr hrs, hasc [] rs rfl, by simp, by simp, by simp⟩, by simp, ?_⟩
      have h20 := h18 [.val c!"]"]
      simp only [List.append_nil, List.singleton_append] at h20 ⊢
      clear h8 h3 h2 h
      have h21 : ∀ v x, nss.flatten ++ [Node.val c!"]"] ≠ .val v :: x := by
        intro v x e
        generalize rangesText rs ++ (c!"]" ++ q3) = w at h17
        generalize c!"]" ++ q3 = w' at h17
        cases h17 with
        | nil => simp at hlen
        | cons h1 _ =>
          obtain ⟨cs, rfl, _⟩ := inv_call gp_mbetween h1
          simp at e
      rw [flatList_val h21, h20, flatList_val (by simp), flatList_nil]
      simp [classFlat]
    · exact absurd h8 inv_or_nil

end DP
