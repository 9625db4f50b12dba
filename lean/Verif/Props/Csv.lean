/-
C108: rules for tables (RFC 4180).
-/
import Verif.Proofs.CsvGen
import Verif.Props.ContextFree
import Verif.Props.Linear

namespace DP
open Spec

/-- **C108**: `rules_from_peg` reads the PEG text, and its rules accept exactly the texts of tables; the table can be read from the
tree. -/
theorem C108_csv : ∃ R, rulesFromPeg csvPeg = .ok R ∧
    (∀ s v, TableText v s ↔ ∃ t, parse s R = .ok t ∧ tableOf t = v) ∧
    ∀ s, (∃ t, parse s R = .ok t) ↔ ∃ v, TableText v s := by
  have h1 : ∀ s t, parse s csvRules = .ok t → TableText (tableOf t) s := fun s t h => k_main_sound (C63_sound h)
  have h2 : ∀ s v, TableText v s → ∃ t, parse s csvRules = .ok t ∧ tableOf t = v := by
    intro s v h
    obtain ⟨t, hg, ht⟩ := k_main_complete h
    exact ⟨t, (C63_context_free csv_wf csv_ll1.1 csv_ll1.2 s t).2 ⟨tableText_ascii h, hg⟩, ht⟩
  refine ⟨csvRules, csv_rules, fun s v => ⟨h2 s v, ?_⟩, fun s => ⟨?_, ?_⟩⟩
  · rintro ⟨t, h, rfl⟩
    exact h1 s t h
  · rintro ⟨t, h⟩
    exact ⟨_, h1 s t h⟩
  · rintro ⟨v, hv⟩
    obtain ⟨t, h, _⟩ := h2 s v hv
    exact ⟨t, h⟩

/-- **C108**: every other ASCII text is an error. -/
theorem C108_error : ∃ R, rulesFromPeg csvPeg = .ok R ∧ ∀ s, Ascii s → (∀ v, ¬ TableText v s) → ∃ e, parse s R = .err e := by
  refine ⟨csvRules, csv_rules, fun s ha hn => ?_⟩
  rcases C12_total_on_ascii csv_wf ha with ⟨t, ht⟩ | h
  · exact absurd (k_main_sound (C63_sound ht)) (hn _)
  · exact h

/-- **C108**: a text stands for one table only. -/
theorem C108_one_table {s : Str} {v v' : List (List Str)} (h : TableText v s) (h' : TableText v' s) : v = v' := by
  obtain ⟨t, hg, rfl⟩ := k_main_complete h
  obtain ⟨t', hg', rfl⟩ := k_main_complete h'
  rw [C63_unambiguous csv_wf csv_ll1.1 csv_ll1.2 hg hg']

/-- **C108**: each table with a record, each of them with a field, of characters that can be written, is read back. -/
theorem C108_round_trip : ∃ R, rulesFromPeg csvPeg = .ok R ∧
    ∀ v : List (List Str), v ≠ [] → (∀ r ∈ v, r ≠ [] ∧ ∀ x ∈ r, ∀ c ∈ x, 32 ≤ c.toNat ∧ c.toNat < 127 ∨ c = '\r' ∨ c = '\n') →
      ∃ t, parse (writeTable v) R = .ok t ∧ tableOf t = v := by
  obtain ⟨R, hR, h, _⟩ := C108_csv
  refine ⟨R, hR, fun v h0 hv => (h _ v).1 (tableText_write v h0 fun r hr => ⟨(hv r hr).1, fun x hx c hc => ?_⟩)⟩
  by_cases h1 : c = '"'
  · exact .inl h1
  by_cases h2 : c = ','
  · exact .inr (.inr (.inl h2))
  rcases (hv r hr).2 x hx c hc with ⟨h3, h4⟩ | h3 | h3
  · exact .inr (.inl ⟨h3, h4, h1, h2⟩)
  · exact .inr (.inr (.inr (.inl h3)))
  · exact .inr (.inr (.inr (.inr h3)))

/-- **C108**: the number of calls is at most proportional to the text. -/
theorem C108_linear : ∃ R K, rulesFromPeg csvPeg = .ok R ∧ ∀ s, Ascii s → ∃ m, Uses s R m ∧ m.calls ≤ K * (s.length + 1) := by
  obtain ⟨K, hK⟩ := C67_linear csv_wf csv_ll1.1 csv_ll1.2 csv_productive
  exact ⟨csvRules, K, csv_rules, hK⟩

/-! ### Examples -/

example : writeTable [[c!"a", c!"say \"hi\""], [[]]] = c!"\"a\",\"say \"\"hi\"\"\"\r\n\"\"" := by decide +kernel
/-- three ways to write a field -/
example : TableText [[c!"a", c!"b,\"", []]] c!"a,\"b,\"\"\"," :=
  .one (.more (u := c!"a") (.plain (by unfold TextData; decide)) (.more (u := c!"\"b,\"\"\"") (.quoted (u := c!"b,\"\"")
    (.char (.inl (by unfold TextData; decide)) (.char (.inr (.inl rfl)) (.quote .nil)))) (.one (.plain (by simp)))))
/-- a quote in the middle of a field is an error -/
example : ∃ e, parse c!"a\"b" csvRules = .err e := by
  cases he : parseWithDebugF 200 c!"a\"b" csvRules false with
  | err e => exact ⟨e, parse_of_fuel he (by simp)⟩
  | _ =>
    have : (match parseWithDebugF 200 c!"a\"b" csvRules false with | .err _ => true | _ => false) = true := by decide +kernel
    rw [he] at this
    cases this

end DP
