/-
C108, continued: the functions on trees, applied to the tree of a table.
-/
import Verif.Props.Csv
import Verif.Props.JsonTrees

namespace DP
open Spec

/-! ### `compact` -/

theorem partsIn_joined {ns ns' : List Node} (h : Joined ns ns') : partsIn ns' = partsIn ns := by
  match h with
  | .nil => rfl
  | .run vs _ _ h =>
    have hv : ∀ vs : List Str, partsIn (vs.map .val) = [] := by
      intro vs
      induction vs with
      | nil => rfl
      | cons v vs ih => simpa [partsIn] using ih
    rw [partsIn_append, hv, partsIn, partsIn_joined h]
    · rfl
    · intro _ _ h; cases h
  | .rule ha hb => rw [partsIn, partsIn, partsIn_joined hb, (valuesIn_joined ha).2.2.2]
  | .eof h => rw [partsIn, partsIn, partsIn_joined h] <;> intro _ _ h <;> cases h

theorem cellsIn_joined {ns ns' : List Node} (h : Joined ns ns') : cellsIn ns' = cellsIn ns := by
  match h with
  | .nil => rfl
  | .run vs _ _ h =>
    have hv : ∀ vs : List Str, cellsIn (vs.map .val) = [] := by
      intro vs
      induction vs with
      | nil => rfl
      | cons v vs ih => simpa [cellsIn] using ih
    rw [cellsIn_append, hv, cellsIn, cellsIn_joined h]
    · rfl
    · intro _ _ h; cases h
  | .rule ha hb => rw [cellsIn, cellsIn, cellsIn_joined hb, cellOf, cellOf, (valuesIn_joined ha).2.2.2, partsIn_joined ha]
  | .eof h => rw [cellsIn, cellsIn, cellsIn_joined h] <;> intro _ _ h <;> cases h

theorem recordsIn_joined {ns ns' : List Node} (h : Joined ns ns') : recordsIn ns' = recordsIn ns := by
  match h with
  | .nil => rfl
  | .run vs _ _ h =>
    have hv : ∀ vs : List Str, recordsIn (vs.map .val) = [] := by
      intro vs
      induction vs with
      | nil => rfl
      | cons v vs ih => simpa [recordsIn] using ih
    rw [recordsIn_append, hv, recordsIn, recordsIn_joined h]
    · rfl
    · intro _ _ h; cases h
  | .rule ha hb => rw [recordsIn, recordsIn, recordsIn_joined hb, cellsIn_joined ha]
  | .eof h => rw [recordsIn, recordsIn, recordsIn_joined h] <;> intro _ _ h <;> cases h

/-- **C108**: `compact` does not change the table that a tree stands for. -/
theorem C108_compact (t : Node) : tableOf t.compact = tableOf t := by
  cases t with
  | rule n ns => exact recordsIn_joined (compactNodes_joined ns)
  | _ => rfl

/-! ### `pass_through_except` -/

/-- the rules whose nodes have a meaning of their own -/
def csvNames : List Str := [c!"record", c!"field", c!"part"]

mutual
/-- nothing that has a meaning is below the other rules -/
def PlainCsv : Node → Prop
  | .rule n ns => PlainCsvs ns ∧ (n ∉ csvNames → partsIn ns = [] ∧ cellsIn ns = [] ∧ recordsIn ns = [])
  | _ => True
def PlainCsvs : List Node → Prop
  | [] => True
  | n :: ns => PlainCsv n ∧ PlainCsvs ns
end

theorem plainCsvs_append : ∀ a b : List Node, PlainCsvs a → PlainCsvs b → PlainCsvs (a ++ b)
  | [], _, _, h => h
  | _ :: a, b, ha, hb => by
    rw [PlainCsvs] at ha
    exact ⟨ha.1, plainCsvs_append a b ha.2 hb⟩

theorem csv_named {n : Str} (h : n ∉ csvNames) : n ≠ c!"record" ∧ n ≠ c!"field" ∧ n ≠ c!"part" := by
  refine ⟨fun e => h ?_, fun e => h ?_, fun e => h ?_⟩ <;> rw [e] <;> decide

theorem pass_textL (keep : List Str) (ns : List Node) : textL (Node.passList keep ns) = textL ns := by
  unfold textL
  rw [pass_leavesL]

theorem pass_csvs {keep : List Str} (hk : ∀ n ∈ csvNames, n ∈ keep) : ∀ ns : List Node, PlainCsvs ns →
    partsIn (Node.passList keep ns) = partsIn ns ∧ cellsIn (Node.passList keep ns) = cellsIn ns ∧ recordsIn (Node.passList keep ns) = recordsIn ns
  | [], _ => by rw [Node.passList]; exact ⟨rfl, rfl, rfl⟩
  | .eof :: ns, h => by
    rw [PlainCsvs] at h
    obtain ⟨g1, g2, g3⟩ := pass_csvs hk ns h.2
    rw [Node.passList, Node.passThrough]
    · exact ⟨by simp [partsIn, g1], by simp [cellsIn, g2], by simp [recordsIn, g3]⟩
    · intro n vn h; cases h
  | .val v :: ns, h => by
    rw [PlainCsvs] at h
    obtain ⟨g1, g2, g3⟩ := pass_csvs hk ns h.2
    rw [Node.passList, Node.passThrough]
    · exact ⟨by simp [partsIn, g1], by simp [cellsIn, g2], by simp [recordsIn, g3]⟩
    · intro n vn h; cases h
  | .rule n vn :: ns, h => by
    rw [PlainCsvs, PlainCsv] at h
    obtain ⟨g1, g2, g3⟩ := pass_csvs hk ns h.2
    obtain ⟨f1, f2, f3⟩ := pass_csvs hk vn h.1.1
    rw [Node.passList]
    split
    · rw [Node.passThrough]
      refine ⟨?_, ?_, ?_⟩
      · rw [partsIn, partsIn, pass_textL, g1]
      · rw [cellsIn, cellsIn, cellOf, cellOf, pass_textL, f1, g2]
      · rw [recordsIn, recordsIn, f2, g3]
    · rename_i hn
      have hn : n ∉ csvNames := fun h => hn (by simpa [Node.isKept] using hk n h)
      obtain ⟨d1, d2, d3⟩ := h.1.2 hn
      obtain ⟨n1, n2, n3⟩ := csv_named hn
      refine ⟨?_, ?_, ?_⟩
      · rw [partsIn_append, f1, d1, g1, partsIn, if_neg n3]
      · rw [cellsIn_append, f2, d2, g2, cellsIn, if_neg n2]
      · rw [recordsIn_append, f3, d3, g3, recordsIn, if_neg n1]

/-- no rule uses `main` -/
theorem csv_refs {n : Str} {e : Expr} (h : KG n = some e) : ¬ Refs e c!"main" := by
  have hn : n ∈ csvRules.entries.map Prod.fst := mem_keys h
  simp only [csvRules, List.map_cons, List.map_nil, List.mem_cons, List.not_mem_nil, or_false] at hn
  rcases hn with rfl | rfl | rfl | rfl | rfl
  · rw [kg_text] at h; cases h; simp [jMany, refs_rep, refs_simple]
  · rw [kg_part] at h; cases h; simp [jMany, kPartChar, jLit, refs_rep, refs_or, refs_simple]
  · rw [kg_field] at h; cases h; simp [jSome, jLit, kSegment, refs_rep, refs_or, refs_and, refs_simple, refs_call]
  · rw [kg_record] at h; cases h; simp [jMany, jLit, refs_rep, refs_and, refs_simple, refs_call]
  · rw [kg_main] at h; cases h; simp [jMany, jLit, refs_rep, refs_and, refs_simple, refs_call]

theorem csv_plain {e u ns} (h : Gen KG e u ns) : ¬ Refs e c!"main" → PlainCsvs ns := by
  induction h with
  | lit l => exact fun _ => ⟨trivial, trivial⟩
  | cls _ => exact fun _ => ⟨trivial, trivial⟩
  | dot c => exact fun _ => ⟨trivial, trivial⟩
  | eof => exact fun _ => ⟨trivial, trivial⟩
  | nil => exact fun _ => trivial
  | cons _ _ ih1 ih2 =>
    intro hr
    rw [refs_and] at hr
    refine plainCsvs_append _ _ (ih1 fun h => hr ⟨_, List.mem_cons_self, h⟩) (ih2 fun h => hr ?_)
    obtain ⟨e, he, h⟩ := refs_and.1 h
    exact ⟨e, List.mem_cons_of_mem _ he, h⟩
  | or hm _ ih => exact fun hr => ih fun h => hr (.or hm h)
  | not e => exact fun _ => trivial
  | none e mx => exact fun _ => trivial
  | full e mn => exact fun _ => trivial
  | more _ _ _ ih1 ih2 =>
    intro hr
    rw [refs_rep] at hr
    exact plainCsvs_append _ _ (ih1 hr) (ih2 (by rwa [refs_rep]))
  | @call n e u ns hg h ih =>
    intro hr
    rw [PlainCsvs, PlainCsv]
    refine ⟨⟨ih (csv_refs hg), fun hn => ?_⟩, trivial⟩
    have hm : n ≠ c!"main" := fun e => hr (by rw [e]; exact .here _)
    obtain ⟨n1, n2, n3⟩ := csv_named hn
    have hk : n ∈ csvRules.entries.map Prod.fst := mem_keys hg
    simp only [csvRules, List.map_cons, List.map_nil, List.mem_cons, List.not_mem_nil, or_false] at hk
    have hk : n = c!"text" := by tauto
    subst hk
    obtain ⟨_, e⟩ := k_text.1 (Gen.call hg h)
    rw [List.cons.injEq, Node.rule.injEq] at e
    rw [e.1.2]
    have hv : ∀ u : Str, partsIn (u.map fun c => Node.val [c]) = [] ∧ cellsIn (u.map fun c => Node.val [c]) = [] ∧
        recordsIn (u.map fun c => Node.val [c]) = [] := by
      intro u
      induction u with
      | nil => exact ⟨rfl, rfl, rfl⟩
      | cons c u ih => simpa [partsIn, cellsIn, recordsIn] using ih
    exact hv u

/-- **C108**: the tree of a table, without the nodes of other rules than `record`, `field` and `part`, and with its values joined, stands
for the same table. Each of the two steps can be left out. -/
theorem C108_trees {s : Str} {t : Node} (h : parse s csvRules = .ok t) {keep : List Str} (hk : ∀ n ∈ csvNames, n ∈ keep) :
    tableOf (Node.passThrough keep t) = tableOf t ∧ tableOf (Node.compact (Node.passThrough keep t)) = tableOf t := by
  have hg := C63_sound h
  rw [derives_call kg_main] at hg
  obtain ⟨ms, hg, ht⟩ := hg
  have h1 : tableOf (Node.passThrough keep t) = tableOf t := by
    rw [(List.cons.inj ht).1, Node.passThrough]
    exact (pass_csvs hk ms (csv_plain hg (csv_refs kg_main))).2.2
  exact ⟨h1, by rw [C108_compact, h1]⟩

/-! ### Examples -/

/-- the tree of `a,"b""c"` -/
def exCsvTree : Node :=
  .rule c!"main" [.rule c!"record" [.rule c!"field" [.rule c!"text" [.val c!"a"]], .val c!",",
    .rule c!"field" [.val c!"\"", .rule c!"part" [.val c!"b"], .val c!"\"", .val c!"\"", .rule c!"part" [.val c!"c"], .val c!"\""]]]

example : parse c!"a,\"b\"\"c\"" csvRules = .ok exCsvTree := parse_of_fuel (f := 60) (by decide +kernel) (by simp)

example : Node.compact (Node.passThrough csvNames exCsvTree) =
    .rule c!"main" [.rule c!"record" [.rule c!"field" [.val c!"a"], .val c!",",
      .rule c!"field" [.val c!"\"", .rule c!"part" [.val c!"b"], .val c!"\"\"", .rule c!"part" [.val c!"c"], .val c!"\""]]] := by
  decide +kernel

example : tableOf exCsvTree = [[c!"a", c!"b\"c"]] := by decide +kernel

/-- a name that matters has to be kept -/
example : tableOf (Node.passThrough [c!"record", c!"field"] exCsvTree) = [[c!"a", c!"\"b\"\"c\""]] := by decide +kernel

end DP
