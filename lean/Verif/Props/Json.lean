/-
C105: rules for JSON.
-/
import Verif.Proofs.JsonGen
import Verif.Proofs.JsonWrite
import Verif.Props.ContextFree
import Verif.Props.Linear

namespace DP
open Spec

/-- **C105**: `rules_from_peg` reads the PEG text, and its rules accept the texts of RFC 8259 that are ASCII and nothing else; the
value can be read from the tree. -/
theorem C105_json : ∃ R, rulesFromPeg jsonPeg = .ok R ∧
    (∀ s v, JsonText v s ↔ ∃ t, parse s R = .ok t ∧ jsonOf t = some v) ∧
    ∀ s, (∃ t, parse s R = .ok t) ↔ ∃ v, JsonText v s := by
  have h1 : ∀ s t, parse s jsonRules = .ok t → ∃ v, jsonOf t = some v ∧ JsonText v s := fun s t h => j_main_sound (C63_sound h)
  have h2 : ∀ s v, JsonText v s → ∃ t, parse s jsonRules = .ok t ∧ jsonOf t = some v := by
    intro s v h
    obtain ⟨t, hg, ht⟩ := j_main_complete h
    exact ⟨t, (C63_context_free json_wf json_ll1.1 json_ll1.2 s t).2 ⟨jsonText_ascii h, hg⟩, ht⟩
  refine ⟨jsonRules, json_rules, fun s v => ⟨h2 s v, ?_⟩, fun s => ⟨?_, ?_⟩⟩
  · rintro ⟨t, h, ht⟩
    obtain ⟨v', ht', hv⟩ := h1 s t h
    rw [ht] at ht'
    cases ht'
    exact hv
  · rintro ⟨t, h⟩
    obtain ⟨v, _, hv⟩ := h1 s t h
    exact ⟨v, hv⟩
  · rintro ⟨v, hv⟩
    obtain ⟨t, h, _⟩ := h2 s v hv
    exact ⟨t, h⟩

/-- **C105**: every other ASCII text is an error, and neither a panic nor a run without end. -/
theorem C105_error : ∃ R, rulesFromPeg jsonPeg = .ok R ∧ ∀ s, Ascii s → (∀ v, ¬ JsonText v s) → ∃ e, parse s R = .err e := by
  refine ⟨jsonRules, json_rules, fun s ha hn => ?_⟩
  rcases C12_total_on_ascii json_wf ha with ⟨t, ht⟩ | h
  · obtain ⟨v, _, hv⟩ := j_main_sound (C63_sound ht)
    exact absurd hv (hn v)
  · exact h

/-- **C105**: a text has one value only. -/
theorem C105_one_value {s : Str} {v v' : Json} (h : JsonText v s) (h' : JsonText v' s) : v = v' := by
  obtain ⟨t, hg, ht⟩ := j_main_complete h
  obtain ⟨t', hg', ht'⟩ := j_main_complete h'
  rw [C63_unambiguous json_wf json_ll1.1 json_ll1.2 hg hg', ht'] at ht
  exact (Option.some.inj ht).symm

/-- **C105**: each value has a text, and it is read back. -/
theorem C105_round_trip : ∃ R, rulesFromPeg jsonPeg = .ok R ∧
    ∀ v : Json, v.Proper → ∃ t, parse (writeJson v) R = .ok t ∧ jsonOf t = some v := by
  obtain ⟨R, hR, h, _⟩ := C105_json
  exact ⟨R, hR, fun v hv => (h _ v).1 (jsonText_write hv)⟩

/-- **C105**: the number of calls is at most proportional to the text. -/
theorem C105_linear : ∃ R K, rulesFromPeg jsonPeg = .ok R ∧ ∀ s, Ascii s → ∃ m, Uses s R m ∧ m.calls ≤ K * (s.length + 1) := by
  obtain ⟨K, hK⟩ := C67_linear json_wf json_ll1.1 json_ll1.2 json_productive
  exact ⟨jsonRules, K, json_rules, hK⟩

/-! ### Examples -/

def exJson : Json := .obj [([97], .arr [.num c!"-1.5e3", .str [233, 10], .null]), ([], .bool true)]

example : exJson.Proper := by
  simp only [exJson, Json.Proper, properMembers, properMember, properAll, and_true]
  refine ⟨⟨by decide, ⟨['-'], ['1'], ['.', '5'], ['e', '3'], rfl, .inr rfl, .inr ⟨'1', [], rfl, by decide, by decide, by unfold JDigits; decide⟩,
    .inr ⟨['5'], rfl, by decide, by unfold JDigits; decide⟩, .inr ⟨'e', [], ['3'], rfl, .inl rfl, .inl rfl, by decide, by unfold JDigits; decide⟩⟩, by decide⟩, by decide⟩
example : writeJson exJson = c!"{\"a\":[-1.5e3,\"\\u00e9\\u000a\",null],\"\":true}" := by decide +kernel
example : JsonText (.arr [.arr []]) c!" [ [\n] ] " :=
  ⟨[' '], c!"[ [\n] ]", [' '], rfl, by unfold JBlank; decide, .arr (.item (w := [' ']) (u := c!"[\n]") (w' := [' ']) (by unfold JBlank; decide)
    (.arr_nil (w := ['\n']) (by unfold JBlank; decide)) (by unfold JBlank; decide)), by unfold JBlank; decide⟩
/-- a comma after the last value is not JSON -/
example : ∃ e, parse c!"[1,]" jsonRules = .err e := by
  cases he : parseWithDebugF 200 c!"[1,]" jsonRules false with
  | err e => exact ⟨e, parse_of_fuel he (by simp)⟩
  | _ =>
    have : (match parseWithDebugF 200 c!"[1,]" jsonRules false with | .err _ => true | _ => false) = true := by decide +kernel
    rw [he] at this
    cases this

end DP
