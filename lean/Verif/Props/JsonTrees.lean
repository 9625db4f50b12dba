/-
C109: the functions on trees, applied to the tree of a JSON text.
-/
import Verif.Props.Json
import Verif.Props.Ast
import Verif.Proofs.TreeCopies

namespace DP
open Spec

/-! ### `compact` -/

mutual
theorem jsonOf_joined : ∀ {n : Str} {ns ns' : List Node}, Joined ns ns' → jsonOf (.rule n ns') = jsonOf (.rule n ns) ∧ memberOf (.rule n ns') = memberOf (.rule n ns)
  | n, ns, ns', h => by
    obtain ⟨h1, h2, h3, h4⟩ := valuesIn_joined h
    simp only [jsonOf, memberOf, h1, h2, h3, h4, and_self]
theorem valuesIn_joined : ∀ {ns ns' : List Node}, Joined ns ns' →
    valuesIn ns' = valuesIn ns ∧ membersIn ns' = membersIn ns ∧ unitsIn ns' = unitsIn ns ∧ textL ns' = textL ns
  | _, _, .nil => ⟨rfl, rfl, rfl, rfl⟩
  | _, _, .run (rest := rest) (rest' := rest') vs _ _ h => by
    obtain ⟨h1, h2, h3, h4⟩ := valuesIn_joined h
    have hv : ∀ vs : List Str, valuesIn (vs.map .val) = [] ∧ membersIn (vs.map .val) = [] ∧ unitsIn (vs.map .val) = [] ∧ textL (vs.map .val) = vs.flatten := by
      intro vs
      induction vs with
      | nil => exact ⟨rfl, rfl, rfl, rfl⟩
      | cons v vs ih =>
        refine ⟨?_, ?_, ?_, ?_⟩
        · simp [valuesIn, jsonOf, ih.1]
        · simp [membersIn, memberOf, ih.2.1]
        · simp [unitsIn, ih.2.2.1]
        · have := ih.2.2.2
          simp only [textL] at this ⊢
          simp [leavesL, leaves, this]
    obtain ⟨g1, g2, g3, g4⟩ := hv vs
    refine ⟨?_, ?_, ?_, ?_⟩
    · rw [valuesIn_append, g1, valuesIn, h1]; rfl
    · rw [membersIn_append, g2, membersIn, h2]; rfl
    · rw [unitsIn_append, g3]; simp [unitsIn, h3]
    · rw [textL_append, g4, ← h4]
      simp [textL, leavesL, leaves]
  | _, _, .rule (n := n) (ns := ns) (ns' := ns') (rest := rest) (rest' := rest') ha hb => by
    obtain ⟨h1, h2, h3, h4⟩ := valuesIn_joined hb
    obtain ⟨g1, g2⟩ := jsonOf_joined (n := n) ha
    obtain ⟨_, _, _, g4⟩ := valuesIn_joined ha
    refine ⟨?_, ?_, ?_, ?_⟩
    · rw [valuesIn, valuesIn, g1, h1]
    · rw [membersIn, membersIn, g2, h2]
    · rw [unitsIn, unitsIn, g4, h3]
    · simp only [textL] at g4 h4 ⊢
      simp [leavesL, leaves, g4, h4]
  | _, _, .eof h => by
    obtain ⟨h1, h2, h3, h4⟩ := valuesIn_joined h
    refine ⟨?_, ?_, ?_, ?_⟩
    · rw [valuesIn, valuesIn, h1]
    · rw [membersIn, membersIn, h2]
    · simp [unitsIn, h3]
    · simp only [textL] at h4 ⊢
      simp [leavesL, leaves, h4]
end

/-- **C109**: `compact` does not change the value that a tree stands for. -/
theorem C109_compact (t : Node) : jsonOf t.compact = jsonOf t := by
  cases t with
  | rule n ns => exact (jsonOf_joined (compactNodes_joined ns)).1
  | _ => rfl

/-! ### Trees that can be pruned -/

/-- the rules whose nodes have a meaning of their own -/
def jsonNames : List Str := [c!"object", c!"array", c!"member", c!"string", c!"char", c!"number", c!"word"]

mutual
/-- the nodes of other rules only stand for what is below them, and no white space is below a number, a word or a character -/
def PlainJson : Node → Prop
  | .rule n ns => PlainJsons ns ∧
      (n ∉ jsonNames → valuesIn ns = (jsonOf (.rule n ns)).toList ∧ membersIn ns = [] ∧ unitsIn ns = []) ∧
      (n = c!"number" ∨ n = c!"word" ∨ n = c!"char" → textL (Node.pruneList [c!"ws"] ns) = textL ns)
  | _ => True
def PlainJsons : List Node → Prop
  | [] => True
  | n :: ns => PlainJson n ∧ PlainJsons ns
end

theorem plainJsons_append : ∀ a b : List Node, PlainJsons a → PlainJsons b → PlainJsons (a ++ b)
  | [], _, _, h => h
  | _ :: a, b, ha, hb => by
    rw [PlainJsons] at ha
    exact ⟨ha.1, plainJsons_append a b ha.2 hb⟩

theorem jsonOf_congr {n : Str} {a b : List Node} (hv : valuesIn a = valuesIn b) (hm : membersIn a = membersIn b) (hu : unitsIn a = unitsIn b)
    (ht : n = c!"number" ∨ n = c!"word" ∨ n = c!"char" → textL a = textL b) :
    jsonOf (.rule n a) = jsonOf (.rule n b) ∧ memberOf (.rule n a) = memberOf (.rule n b) := by
  refine ⟨?_, by simp only [memberOf, hv]⟩
  simp only [jsonOf, hv, hm, hu]
  by_cases h1 : n = c!"number"
  · rw [ht (.inl h1)]
  by_cases h2 : n = c!"word"
  · rw [ht (.inr (.inl h2))]
  rw [if_neg h1, if_neg h1, if_neg h2, if_neg h2]

theorem not_named {n : Str} (h : n ∉ jsonNames) : n ≠ c!"member" ∧ n ≠ c!"char" := by
  refine ⟨fun e => h ?_, fun e => h ?_⟩ <;> rw [e] <;> decide

mutual
theorem prune_json : ∀ t : Node, PlainJson t →
    jsonOf (Node.prune [c!"ws"] t) = jsonOf t ∧ memberOf (Node.prune [c!"ws"] t) = memberOf t ∧ PlainJson (Node.prune [c!"ws"] t)
  | .eof, _ => by rw [Node.prune]; exact ⟨rfl, rfl, trivial⟩
  | .val v, _ => by rw [Node.prune]; exact ⟨rfl, rfl, trivial⟩
  | .rule n ns, h => by
    rw [PlainJson] at h
    obtain ⟨h1, h2, h3⟩ := h
    obtain ⟨g1, g2, g3, g4⟩ := prune_jsons ns h1
    have e := jsonOf_congr (n := n) g1 g2 g3 h3
    rw [Node.prune]
    refine ⟨e.1, e.2, ?_⟩
    rw [PlainJson]
    refine ⟨g4, fun hn => ?_, fun hn => ?_⟩
    · rw [g1, g2, g3, e.1]
      exact h2 hn
    · have := C24_prune_idempotent [c!"ws"] (.rule n ns)
      rw [Node.prune, Node.prune, Node.rule.injEq] at this
      rw [this.2]
theorem prune_jsons : ∀ ns : List Node, PlainJsons ns →
    valuesIn (Node.pruneList [c!"ws"] ns) = valuesIn ns ∧ membersIn (Node.pruneList [c!"ws"] ns) = membersIn ns ∧
    unitsIn (Node.pruneList [c!"ws"] ns) = unitsIn ns ∧ PlainJsons (Node.pruneList [c!"ws"] ns)
  | [], _ => by rw [Node.pruneList]; exact ⟨rfl, rfl, rfl, trivial⟩
  | t :: ns, h => by
    rw [PlainJsons] at h
    obtain ⟨g1, g2, g3, g4⟩ := prune_jsons ns h.2
    obtain ⟨e1, e2, e3⟩ := prune_json t h.1
    rw [Node.pruneList]
    by_cases hw : Node.isNamedIn [c!"ws"] t = true
    · rw [hw]
      simp only [Bool.not_true, Bool.false_eq_true, if_false]
      cases t with
      | rule n vn =>
        have hn : n = c!"ws" := by
          simp only [Node.isNamedIn, List.any_cons, List.any_nil, Bool.or_false, beq_iff_eq] at hw
          exact hw.symm
        subst hn
        refine ⟨?_, ?_, ?_, g4⟩
        · rw [valuesIn, g1]; simp [jsonOf]
        · rw [membersIn, g2]; simp [memberOf]
        · rw [unitsIn, g3]; simp
      | _ => cases hw
    · rw [Bool.not_eq_true] at hw
      rw [hw]
      simp only [Bool.not_false, if_true]
      refine ⟨?_, ?_, ?_, ?_⟩
      · rw [valuesIn, valuesIn, e1, g1]
      · rw [membersIn, membersIn, e2, g2]
      · cases t with
        | rule n vn =>
          rw [Node.prune, unitsIn, unitsIn, g3]
          by_cases hn : n = c!"char"
          · have := h.1
            rw [PlainJson] at this
            rw [this.2.2 (.inr (.inr hn))]
          · rw [if_neg hn, if_neg hn]
        | _ => rw [Node.prune]; simp [unitsIn, g3]
      · rw [PlainJsons]; exact ⟨e3, g4⟩
end

mutual
theorem pass_json {keep : List Str} (hk : ∀ n ∈ jsonNames, n ∈ keep) : ∀ t : Node, PlainJson t →
    jsonOf (Node.passThrough keep t) = jsonOf t ∧ memberOf (Node.passThrough keep t) = memberOf t
  | .eof, _ => by rw [Node.passThrough]; exact ⟨rfl, rfl⟩
  | .val v, _ => by rw [Node.passThrough]; exact ⟨rfl, rfl⟩
  | .rule n ns, h => by
    rw [PlainJson] at h
    obtain ⟨g1, g2, g3⟩ := pass_jsons hk ns h.1
    rw [Node.passThrough]
    exact jsonOf_congr g1 g2 g3 fun _ => by unfold textL; rw [pass_leavesL]
theorem pass_jsons {keep : List Str} (hk : ∀ n ∈ jsonNames, n ∈ keep) : ∀ ns : List Node, PlainJsons ns →
    valuesIn (Node.passList keep ns) = valuesIn ns ∧ membersIn (Node.passList keep ns) = membersIn ns ∧ unitsIn (Node.passList keep ns) = unitsIn ns
  | [], _ => by rw [Node.passList]; exact ⟨rfl, rfl, rfl⟩
  | .eof :: ns, h => by
    rw [PlainJsons] at h
    obtain ⟨g1, g2, g3⟩ := pass_jsons hk ns h.2
    rw [Node.passList, Node.passThrough]
    · exact ⟨by rw [valuesIn, valuesIn, g1], by rw [membersIn, membersIn, g2], by simp [unitsIn, g3]⟩
    · intro n vn h; cases h
  | .val v :: ns, h => by
    rw [PlainJsons] at h
    obtain ⟨g1, g2, g3⟩ := pass_jsons hk ns h.2
    rw [Node.passList, Node.passThrough]
    · exact ⟨by rw [valuesIn, valuesIn, g1], by rw [membersIn, membersIn, g2], by simp [unitsIn, g3]⟩
    · intro n vn h; cases h
  | .rule n vn :: ns, h => by
    rw [PlainJsons] at h
    obtain ⟨g1, g2, g3⟩ := pass_jsons hk ns h.2
    obtain ⟨e1, e2⟩ := pass_json hk (.rule n vn) h.1
    rw [Node.passList]
    split
    · refine ⟨by rw [valuesIn, valuesIn, e1, g1], by rw [membersIn, membersIn, e2, g2], ?_⟩
      rw [Node.passThrough, unitsIn, unitsIn, g3]
      unfold textL
      rw [pass_leavesL]
    · rename_i hn
      have hn : n ∉ jsonNames := fun h => hn (by simpa [Node.isKept] using hk n h)
      have hp := h.1
      rw [PlainJson] at hp
      obtain ⟨f1, f2, f3⟩ := pass_jsons hk vn hp.1
      obtain ⟨d1, d2, d3⟩ := hp.2.1 hn
      obtain ⟨n1, n2⟩ := not_named hn
      refine ⟨?_, ?_, ?_⟩
      · rw [valuesIn_append, f1, d1, g1, valuesIn]
      · rw [membersIn_append, f2, d2, g2, membersIn, memberOf, if_neg n1]
      · rw [unitsIn_append, f3, d3, g3, unitsIn, if_neg n2]
end

/-! ### The trees of JSON texts are such trees -/

/-- a derivation that does not use other rules than `digit` and `hex` has no white space -/
theorem json_no_ws {e u ns} (h : Gen JG e u ns) : (∀ m, Refs e m → m = c!"digit" ∨ m = c!"hex") → Node.pruneList [c!"ws"] ns = ns := by
  have happ : ∀ a b : List Node, Node.pruneList [c!"ws"] (a ++ b) = Node.pruneList [c!"ws"] a ++ Node.pruneList [c!"ws"] b := by
    intro a b
    induction a with
    | nil => rw [Node.pruneList]; rfl
    | cons t a ih =>
      rw [List.cons_append, Node.pruneList, Node.pruneList, ih]
      split <;> rfl
  have hval : ∀ v : Str, Node.pruneList [c!"ws"] [.val v] = [.val v] := by
    intro v
    rw [Node.pruneList, Node.pruneList, Node.prune]
    rfl
  induction h with
  | lit l => exact fun _ => hval _
  | cls _ => exact fun _ => hval _
  | dot c => exact fun _ => hval _
  | eof => exact fun _ => hval _
  | nil => exact fun _ => by rw [Node.pruneList]
  | cons _ _ ih1 ih2 =>
    intro hr
    rw [happ, ih1 fun m hm => hr m (.and List.mem_cons_self hm), ih2 fun m hm => ?_]
    cases hm with
    | and he hm => exact hr m (.and (List.mem_cons_of_mem _ he) hm)
  | or hm _ ih => exact fun hr => ih fun m h => hr m (.or hm h)
  | not e => exact fun _ => by rw [Node.pruneList]
  | none e mx => exact fun _ => by rw [Node.pruneList]
  | full e mn => exact fun _ => by rw [Node.pruneList]
  | more _ _ _ ih1 ih2 =>
    intro hr
    rw [happ, ih1 fun m hm => hr m (.rep hm), ih2 fun m hm => ?_]
    cases hm with
    | rep hm => exact hr m (.rep hm)
  | @call n e u ns hg h ih =>
    intro hr
    have hn := hr n (.here n)
    have hb : ∀ m, ¬ Refs e m := by
      rcases hn with rfl | rfl
      · rw [jg_digit] at hg
        cases hg
        exact fun m h => by cases h
      · rw [jg_hex] at hg
        cases hg
        exact fun m h => by cases h
    have := ih fun m hm => absurd hm (hb m)
    rw [Node.pruneList, Node.pruneList, Node.prune, this]
    rcases hn with rfl | rfl <;> rfl

theorem refs_and {es m} : Refs (.and es) m ↔ ∃ e ∈ es, Refs e m :=
  ⟨fun h => by cases h with | and h1 h2 => exact ⟨_, h1, h2⟩, fun ⟨_, h1, h2⟩ => .and h1 h2⟩
theorem refs_or {es m} : Refs (.or es) m ↔ ∃ e ∈ es, Refs e m :=
  ⟨fun h => by cases h with | or h1 h2 => exact ⟨_, h1, h2⟩, fun ⟨_, h1, h2⟩ => .or h1 h2⟩
theorem refs_rep {e mn mx m} : Refs (.rep e mn mx) m ↔ Refs e m :=
  ⟨fun h => by cases h with | rep h => exact h, .rep⟩
theorem refs_call {n m} : Refs (.ruleName n) m ↔ m = n :=
  ⟨fun h => by cases h; rfl, fun h => by subst h; exact .here _⟩
theorem refs_simple {a m} : ¬ Refs (.simple a) m := fun h => by cases h

/-- the rules by name -/
theorem json_rule {n : Str} {e : Expr} (h : JG n = some e) : n ∈ jsonNames ∨ n = c!"ws" ∨ n = c!"digit" ∨ n = c!"hex" ∨ n = c!"value" ∨ n = c!"main" := by
  have hn : n ∈ jsonRules.entries.map Prod.fst := mem_keys h
  simp only [jsonRules, List.map_cons, List.map_nil, List.mem_cons, List.not_mem_nil, or_false] at hn
  simp only [jsonNames, List.mem_cons, List.not_mem_nil, or_false]
  tauto

theorem json_value_node {e u ns} (he : e ∈ [Expr.ruleName c!"object", .ruleName c!"array", .ruleName c!"string", .ruleName c!"number", .ruleName c!"word"])
    (h : Gen JG e u ns) : ∃ v, valuesIn ns = [v] ∧ membersIn ns = [] ∧ unitsIn ns = [] := by
  simp only [List.mem_cons, List.not_mem_nil, or_false] at he
  rcases he with rfl | rfl | rfl | rfl | rfl <;> cases h <;> simp [valuesIn, membersIn, unitsIn, jsonOf, memberOf]
  split
  · exact ⟨_, rfl⟩
  · split <;> exact ⟨_, rfl⟩

theorem json_plain {e u ns} (h : Gen JG e u ns) : PlainJsons ns := by
  induction h with
  | lit l => exact ⟨trivial, trivial⟩
  | cls _ => exact ⟨trivial, trivial⟩
  | dot c => exact ⟨trivial, trivial⟩
  | eof => exact ⟨trivial, trivial⟩
  | nil => exact trivial
  | cons _ _ ih1 ih2 => exact plainJsons_append _ _ ih1 ih2
  | or _ _ ih => exact ih
  | not e => exact trivial
  | none e mx => exact trivial
  | full e mn => exact trivial
  | more _ _ _ ih1 ih2 => exact plainJsons_append _ _ ih1 ih2
  | @call n e u ns hg h ih =>
    rw [PlainJsons, PlainJson]
    refine ⟨⟨ih, fun hn => ?_, fun hn => ?_⟩, trivial⟩
    · have hj : Gen JG (.ruleName n) u [.rule n ns] := .call hg h
      rcases json_rule hg with h0 | rfl | rfl | rfl | rfl | rfl
      · exact absurd h0 hn
      · obtain ⟨_, e⟩ := j_ws.1 hj
        rw [List.cons.injEq, Node.rule.injEq] at e
        rw [e.1.2]
        have hv : ∀ u : Str, valuesIn (u.map fun c => Node.val [c]) = [] ∧ membersIn (u.map fun c => Node.val [c]) = [] ∧ unitsIn (u.map fun c => Node.val [c]) = [] := by
          intro u
          induction u with
          | nil => exact ⟨rfl, rfl, rfl⟩
          | cons c u ih => simp [valuesIn, membersIn, unitsIn, jsonOf, memberOf, ih]
        simp [hv, jsonOf]
      · obtain ⟨c, _, _, e⟩ := (j_digit _ _).1 hj
        rw [List.cons.injEq, Node.rule.injEq] at e
        rw [e.1.2]
        simp [valuesIn, membersIn, unitsIn, jsonOf, memberOf]
      · obtain ⟨c, _, _, _, e⟩ := j_hex.1 hj
        rw [List.cons.injEq, Node.rule.injEq] at e
        rw [e.1.2]
        simp [valuesIn, membersIn, unitsIn, jsonOf, memberOf]
      · rw [jg_value] at hg
        cases hg
        rw [derives_cons] at h
        obtain ⟨x, r, _, _, hx, h, rfl, rfl⟩ := h
        rw [derives_cons] at h
        obtain ⟨w, r, _, _, hw, h, rfl, rfl⟩ := h
        obtain ⟨rfl, rfl⟩ := derives_nil.1 h
        obtain ⟨_, rfl⟩ := j_ws.1 hw
        rw [jValueBody, derives_or] at hx
        obtain ⟨e, he, hx⟩ := hx
        obtain ⟨v, h1, h2, h3⟩ := json_value_node he hx
        simp [valuesIn_append, membersIn_append, unitsIn_append, h1, h2, h3, valuesIn, membersIn, unitsIn, jsonOf, memberOf]
      · rw [jg_main] at hg
        cases hg
        rw [derives_cons] at h
        obtain ⟨w, r, _, _, hw, h, rfl, rfl⟩ := h
        rw [derives_cons] at h
        obtain ⟨x, r, _, _, hx, h, rfl, rfl⟩ := h
        obtain ⟨rfl, rfl⟩ := derives_nil.1 h
        obtain ⟨_, rfl⟩ := j_ws.1 hw
        obtain ⟨t, v, _, _, rfl, _, _, _, hv⟩ := j_value_sound _ _ _ (Nat.lt_succ_self _) hx
        have hm : memberOf t = [] ∧ unitsIn [t] = [] := by
          rw [derives_call jg_value] at hx
          obtain ⟨ms, _, e⟩ := hx
          rw [(List.cons.inj e).1]
          simp [memberOf, unitsIn]
        simp [valuesIn, membersIn, unitsIn, jsonOf, memberOf, hv, hm]
    · rw [json_no_ws h]
      intro m hm
      rcases hn with rfl | rfl | rfl
      · rw [jg_number] at hg
        cases hg
        simp only [jNumberBody, jOpt, jLit, jMany, jSome, refs_and, refs_or, refs_rep, refs_call, refs_simple, List.mem_cons, List.not_mem_nil, or_false,
          exists_eq_or_imp, exists_eq_left, false_or] at hm
        simp_all
      · rw [jg_word] at hg
        cases hg
        simp only [jLit, refs_or, refs_simple, List.mem_cons, List.not_mem_nil, or_false, exists_eq_or_imp, exists_eq_left] at hm
      · rw [jg_char] at hg
        cases hg
        simp only [jEscapeBody, jLit, refs_and, refs_or, refs_call, refs_simple, List.mem_cons, List.not_mem_nil, or_false,
          exists_eq_or_imp, exists_eq_left, false_or] at hm
        simp_all

/-- **C109**: the tree of a JSON text, without white space, without the nodes that only stand for what is below them, and with its
values joined, stands for the same value. Each of the three steps can be left out. -/
theorem C109_value {s : Str} {t : Node} (h : parse s jsonRules = .ok t) {keep : List Str} (hk : ∀ n ∈ jsonNames, n ∈ keep) :
    jsonOf (Node.prune [c!"ws"] t) = jsonOf t ∧ jsonOf (Node.passThrough keep t) = jsonOf t ∧
    jsonOf (Node.compact (Node.passThrough keep (Node.prune [c!"ws"] t))) = jsonOf t := by
  have hp : PlainJson t := (json_plain (C63_sound h)).1
  obtain ⟨h1, _, h2⟩ := prune_json t hp
  exact ⟨h1, (pass_json hk t hp).1, by rw [C109_compact, (pass_json hk _ h2).1, h1]⟩

/-! ### Examples -/

/-- what is left of the tree of ` [1, 20]` -/
def exJsonTree : Node :=
  .rule c!"main" [.rule c!"ws" [.val c!" "], .rule c!"value" [.rule c!"array" [.val c!"[", .rule c!"ws" [],
    .rule c!"value" [.rule c!"number" [.val c!"1"], .rule c!"ws" []], .val c!",", .rule c!"ws" [.val c!" "],
    .rule c!"value" [.rule c!"number" [.val c!"2", .rule c!"digit" [.val c!"0"]], .rule c!"ws" []], .val c!"]"], .rule c!"ws" []]]

example : parse c!" [1, 20]" jsonRules = .ok exJsonTree := parse_of_fuel (f := 60) (by decide +kernel) (by simp)

example : Node.compact (Node.passThrough jsonNames (Node.prune [c!"ws"] exJsonTree)) =
    .rule c!"main" [.rule c!"array" [.val c!"[", .rule c!"number" [.val c!"1"], .val c!",", .rule c!"number" [.val c!"20"], .val c!"]"]] := by
  decide +kernel

example : jsonOf exJsonTree = some (.arr [.num c!"1", .num c!"20"]) := by
  simp [exJsonTree, jsonOf, valuesIn, textL, leavesL, leaves]

/-- a name that matters has to be kept -/
example : jsonOf (Node.passThrough [] exJsonTree) = none := by
  simp [exJsonTree, jsonOf, valuesIn, Node.passThrough, Node.passList, Node.isKept]

end DP
