/-
C110: choices of words, and codes.
-/
import Verif.Props.Readme
import Verif.Props.Nesting
import Verif.Props.Csv
import Verif.Props.Syntax
import Verif.Spec.Codes

namespace DP
open Spec

/-- `w1 / w2 / ...` -/
def wordChoice (ws : List Str) : Expr := .or (ws.map fun w => .simple (.literal w))

/-- `main = w1 / w2 / ...` -/
def choiceOfWords (ws : List Str) : SetOfRules := ⟨[(c!"main", wordChoice ws)]⟩

/-- `main = (w1 / w2 / ...)*` -/
def codeRules (ws : List Str) : SetOfRules := ⟨[(c!"main", .rep (wordChoice ws) 0 none)]⟩

section
variable {G : Str → Option Expr}

theorem words_first : ∀ {ws : List Str} {s w}, FirstOf ws s w → ∀ r, s = w ++ r → Peg G (wordChoice ws) s (.ok r [.val w])
  | ws, s, w, ⟨_, a, b, he, hn⟩, r, hs => by
    subst he
    induction a with
    | nil => subst hs; exact .or_ok (.lit_ok w r)
    | cons v a ih =>
      exact .or_next (.lit_fail v s (hn v List.mem_cons_self)) (ih fun x hx => hn x (List.mem_cons_of_mem _ hx))

theorem words_fail : ∀ {ws : List Str} {s}, (∀ w ∈ ws, ¬ w <+: s) → Peg G (wordChoice ws) s .fail
  | [], s, _ => .or_nil s
  | w :: _, s, h => .or_next (.lit_fail w s (h w List.mem_cons_self)) (words_fail fun x hx => h x (List.mem_cons_of_mem _ hx))

theorem words_cases (ws : List Str) (s : Str) : (∃ w, FirstOf ws s w) ∨ ∀ w ∈ ws, ¬ w <+: s := by
  induction ws with
  | nil => exact .inr (by simp)
  | cons v ws ih =>
    by_cases hv : v <+: s
    · exact .inl ⟨v, hv, [], ws, rfl, by simp⟩
    · rcases ih with ⟨w, hw, a, b, rfl, hn⟩ | h
      · exact .inl ⟨w, hw, v :: a, b, rfl, fun x hx => (List.mem_cons.1 hx).elim (fun e => by rw [e]; exact hv) (hn x)⟩
      · exact .inr fun x hx => (List.mem_cons.1 hx).elim (fun e => by rw [e]; exact hv) (h x)

theorem words_ok {ws : List Str} {s r ns} : Peg G (wordChoice ws) s (.ok r ns) ↔ ∃ w, FirstOf ws s w ∧ s = w ++ r ∧ ns = [.val w] := by
  constructor
  · intro h
    rcases words_cases ws s with ⟨w, hw⟩ | hn
    · obtain ⟨r', hr⟩ := hw.1
      cases peg_det h (words_first hw r' hr.symm)
      exact ⟨w, hw, hr.symm, rfl⟩
    · cases peg_det h (words_fail hn)
  · rintro ⟨w, hw, hs, rfl⟩
    exact words_first hw r hs

theorem words_star {ws : List Str} (h0 : [] ∉ ws) {s ms} (h : Cut ws s ms) : Peg G (.rep (wordChoice ws) 0 none) s (.ok [] (ms.map .val)) := by
  induction h with
  | nil =>
    refine .rep_stop (by simp) (words_fail fun w hw hp => h0 ?_)
    rwa [List.prefix_nil.1 hp] at hw
  | @cons w r ms hf _ ih => exact .rep_more (by simp) (words_first hf r rfl) ih

theorem star_words {ws : List Str} {e s o} (h : Peg G e s o) : ∀ ns, e = .rep (wordChoice ws) 0 none → o = .ok [] ns →
    ∃ ms, Cut ws s ms ∧ ns = ms.map .val := by
  induction h with
  | rep_more _ hp _ _ ih =>
    intro ns he ho
    cases he
    cases ho
    obtain ⟨w, hw, rfl, rfl⟩ := words_ok.1 hp
    obtain ⟨ms, hc, rfl⟩ := ih _ rfl rfl
    exact ⟨w :: ms, .cons hw hc, rfl⟩
  | rep_stop _ _ =>
    intro ns he ho
    cases he
    cases ho
    exact ⟨[], .nil, rfl⟩
  | _ => intro ns he ho; first | (cases ho; done) | cases he

end

theorem effectives_words : ∀ ws : List Str, effectives (ws.map fun w => Expr.simple (.literal w)) = ws.map fun w => .simple (.literal w)
  | [] => rfl
  | w :: ws => by rw [List.map_cons, effectives, effectives_words ws, effective]

theorem choiceOfWords_main (ws : List Str) : denotes (choiceOfWords ws) c!"main" = some (wordChoice ws) := by
  show some (effective (wordChoice ws)) = _
  rw [wordChoice, effective, effectives_words]

theorem codeRules_main (ws : List Str) : denotes (codeRules ws) c!"main" = some (.rep (wordChoice ws) 0 none) := by
  show some (effective (.rep (wordChoice ws) 0 none)) = _
  rw [effective, wordChoice, effective, effectives_words]

theorem peg_rule {G : Str → Option Expr} {n e s t} (hg : G n = some e) : Peg G (.ruleName n) s (.ok [] [t]) ↔ ∃ ns, Peg G e s (.ok [] ns) ∧ t = .rule n ns := by
  constructor
  · intro h
    cases h with
    | call_ok hg' h => rw [hg] at hg'; cases hg'; exact ⟨_, h, rfl⟩
  · rintro ⟨ns, h, rfl⟩
    exact .call_ok hg h

/-! ### One word -/

/-- **C110**: with `main = w1 / w2 / ...` exactly the words that are listed before all words that begin them are accepted. -/
theorem C110_listed {ws : List Str} {s : Str} {t : Node} :
    parse s (choiceOfWords ws) = .ok t ↔ Ascii s ∧ (∃ a b, ws = a ++ s :: b ∧ ∀ v ∈ a, ¬ v <+: s) ∧ t = .rule c!"main" [.val s] := by
  rw [parse_iff, peg_rule (choiceOfWords_main ws)]
  constructor
  · rintro ⟨ha, ns, h, rfl⟩
    obtain ⟨w, hw, hs, rfl⟩ := words_ok.1 h
    rw [List.append_nil] at hs
    subst hs
    exact ⟨ha, hw.2, rfl⟩
  · rintro ⟨ha, hw, rfl⟩
    exact ⟨ha, _, words_ok.2 ⟨s, ⟨List.prefix_refl s, hw⟩, (List.append_nil s).symm, rfl⟩, rfl⟩

/-- **C110**: all of the words are accepted exactly if none begins a later one. -/
theorem C110_order {ws : List Str} (hd : ws.Nodup) (ha : ∀ w ∈ ws, Ascii w) :
    (∀ w ∈ ws, ∃ t, parse w (choiceOfWords ws) = .ok t) ↔ ws.Pairwise fun v w => ¬ v <+: w := by
  constructor
  · intro h
    rw [List.pairwise_iff_getElem]
    intro i j hi hj hij hp
    obtain ⟨t, ht⟩ := h ws[j] (List.getElem_mem hj)
    obtain ⟨_, ⟨a, b, he, hn⟩, _⟩ := C110_listed.1 ht
    have hk : a.length < ws.length := by rw [he]; simp
    have h2 : ws[a.length] = ws[j] := by
      have : ws[a.length]? = some ws[j] := by
        conv_lhs => rw [he]
        simp
      rw [List.getElem?_eq_getElem hk] at this
      exact Option.some.inj this
    have h3 : a.length = j := (List.Nodup.getElem_inj_iff hd).1 h2
    refine hn ws[i] ?_ hp
    have h4 : ws[i]? = a[i]? := by
      conv_lhs => rw [he]
      exact List.getElem?_append_left (by omega)
    rw [List.getElem?_eq_getElem hi] at h4
    exact List.mem_of_getElem? h4.symm
  · intro h w hw
    obtain ⟨a, b, he⟩ := List.append_of_mem hw
    refine ⟨_, C110_listed.2 ⟨ha w hw, ⟨a, b, he, fun v hv => ?_⟩, rfl⟩⟩
    rw [he, List.pairwise_append] at h
    exact h.2.2 v hv w List.mem_cons_self

/-! ### Many words -/

/-- **C110**: with `main = (w1 / w2 / ...)*` the texts that can be cut, each time with the first word that begins what is left. -/
theorem C110_cut {ws : List Str} (h0 : [] ∉ ws) {s : Str} {t : Node} :
    parse s (codeRules ws) = .ok t ↔ Ascii s ∧ ∃ ms, Cut ws s ms ∧ t = .rule c!"main" (ms.map .val) := by
  rw [parse_iff, peg_rule (codeRules_main ws)]
  constructor
  · rintro ⟨ha, ns, h, rfl⟩
    obtain ⟨ms, hc, rfl⟩ := star_words h ns rfl rfl
    exact ⟨ha, ms, hc, rfl⟩
  · rintro ⟨ha, ms, hc, rfl⟩
    exact ⟨ha, _, words_star h0 hc, rfl⟩

theorem cut_words {ws s ms} (h : Cut ws s ms) : s = ms.flatten ∧ ∀ m ∈ ms, m ∈ ws := by
  induction h with
  | nil => exact ⟨rfl, by simp⟩
  | @cons w r ms hf _ ih =>
    obtain ⟨_, a, b, he, _⟩ := hf
    refine ⟨by rw [List.flatten_cons, ← ih.1], fun m hm => ?_⟩
    rcases List.mem_cons.1 hm with rfl | hm
    · rw [he]; simp
    · exact ih.2 m hm

/-- **C110**: if no word begins another one, they are a code: exactly the texts composed of the words are accepted, and the tree has the
words of the message one after another. -/
theorem C110_code {ws : List Str} (h0 : [] ∉ ws) (hp : ∀ v ∈ ws, ∀ w ∈ ws, v <+: w → v = w) {s : Str} {t : Node} :
    parse s (codeRules ws) = .ok t ↔ Ascii s ∧ ∃ ms : List Str, (∀ m ∈ ms, m ∈ ws) ∧ s = ms.flatten ∧ t = .rule c!"main" (ms.map .val) := by
  rw [C110_cut h0]
  refine and_congr_right fun ha => exists_congr fun ms => ?_
  clear ha
  constructor
  · rintro ⟨hc, ht⟩
    exact ⟨(cut_words hc).2, (cut_words hc).1, ht⟩
  · rintro ⟨hm, hs, ht⟩
    refine ⟨?_, ht⟩
    subst hs
    clear ht
    induction ms with
    | nil => exact .nil
    | cons m ms ih =>
      have hmw := hm m List.mem_cons_self
      rw [List.flatten_cons]
      refine .cons ⟨List.prefix_append _ _, ?_⟩ (ih fun x hx => hm x (List.mem_cons_of_mem _ hx))
      rcases words_cases ws (m ++ ms.flatten) with ⟨w, hw, a, b, he, hn⟩ | hn
      · have hww : w ∈ ws := by rw [he]; simp
        have : w = m := by
          rcases List.prefix_or_prefix_of_prefix hw (List.prefix_append m ms.flatten) with h | h
          · exact hp w hww m hmw h
          · exact (hp m hmw w hww h).symm
        subst this
        exact ⟨a, b, he, hn⟩
      · exact absurd (List.prefix_append _ _) (hn m hmw)

/-- **C110**: a message is read back, and no two messages have the same text. -/
theorem C110_decode {ws : List Str} (h0 : [] ∉ ws) (ha : ∀ w ∈ ws, Ascii w) (hp : ∀ v ∈ ws, ∀ w ∈ ws, v <+: w → v = w) {ms : List Str} (hm : ∀ m ∈ ms, m ∈ ws) :
    parse ms.flatten (codeRules ws) = .ok (.rule c!"main" (ms.map .val)) ∧
    ∀ ms' : List Str, (∀ m ∈ ms', m ∈ ws) → ms'.flatten = ms.flatten → ms' = ms := by
  have key : ∀ ms : List Str, (∀ m ∈ ms, m ∈ ws) → parse ms.flatten (codeRules ws) = .ok (.rule c!"main" (ms.map .val)) := by
    intro ms hm
    refine (C110_code h0 hp).2 ⟨fun c hc => ?_, ms, hm, rfl, rfl⟩
    obtain ⟨m, h1, h2⟩ := List.mem_flatten.1 hc
    exact ha m (hm m h1) c h2
  refine ⟨key ms hm, fun ms' hm' he => ?_⟩
  have h := key ms' hm'
  rw [he, key ms hm] at h
  simp only [Out.ok.injEq, Node.rule.injEq, true_and] at h
  exact (List.map_injective_iff.2 (fun a b e => by injection e) h).symm

/-- **C110**: the order in which the words of a code are listed does not matter. -/
theorem C110_any_order {ws ws' : List Str} (h0 : [] ∉ ws) (hp : ∀ v ∈ ws, ∀ w ∈ ws, v <+: w → v = w) (hs : ∀ w, w ∈ ws ↔ w ∈ ws') {s : Str} {t : Node} :
    parse s (codeRules ws) = .ok t ↔ parse s (codeRules ws') = .ok t := by
  rw [C110_code h0 hp, C110_code (by rwa [← hs]) (fun v hv w hw => hp v ((hs v).2 hv) w ((hs w).2 hw))]
  simp only [hs]

theorem codeRules_only {ws : List Str} {n e} (h : denotes (codeRules ws) n = some e) : e = .rep (wordChoice ws) 0 none := by
  by_cases hn : n = c!"main"
  · subst hn
    rw [codeRules_main] at h
    exact (Option.some.inj h).symm
  · have : (n == c!"main") = false := by simpa using hn
    unfold denotes grammar codeRules at h
    simp [List.lookup, this] at h

theorem codeRules_wf {ws : List Str} (h0 : [] ∉ ws) : WellFormed (denotes (codeRules ws)) where
  no_left_recursion n h := by
    have : ∀ a b, ¬ LeftStep (denotes (codeRules ws)) a b := by
      rintro a b ⟨e, hg, hc⟩
      rw [codeRules_only hg] at hc
      cases hc with
      | rep hc =>
        cases hc with
        | or hm hc =>
          obtain ⟨w, _, rfl⟩ := List.mem_map.1 hm
          cases hc
    cases h with
    | single h => exact this _ _ h
    | tail _ h => exact this _ _ h
  no_empty_repetition n e b mn hg hs := by
    rw [codeRules_only hg] at hs
    have hb : b = wordChoice ws := by
      cases hs with
      | refl => rfl
      | rep hs =>
        cases hs with
        | or hm hs =>
          obtain ⟨w, _, rfl⟩ := List.mem_map.1 hm
          cases hs
    subst hb
    intro h
    cases h with
    | or hm h =>
      obtain ⟨w, hw, rfl⟩ := List.mem_map.1 hm
      cases h
      exact h0 hw

/-- **C110**: every other ASCII text is an error, and the number of calls is at most proportional to the length of the text. -/
theorem C110_linear {ws : List Str} (h0 : [] ∉ ws) : (∀ s, Ascii s → (∀ ms, ¬ Cut ws s ms) → ∃ e, parse s (codeRules ws) = .err e) ∧
    ∃ K, ∀ s, Ascii s → ∃ m, Uses s (codeRules ws) m ∧ m.calls ≤ K * (s.length + 1) := by
  constructor
  · intro s ha hn
    rcases C12_total_on_ascii (codeRules_wf h0) ha with ⟨t, ht⟩ | h
    · obtain ⟨_, ms, hc, _⟩ := (C110_cut h0).1 ht
      exact absurd hc (hn ms)
    · exact h
  · have := C69_power (codeRules_wf h0) (d := 1) (.call (codeRules_main ws) (.unbounded 0 (.or fun e he => by
      obtain ⟨w, _, rfl⟩ := List.mem_map.1 he
      exact .simple _ _)))
    simpa using this

/-- **C110**: such rules can be written as a PEG text. -/
theorem C110_peg {ws : List Str} (h2 : 2 ≤ ws.length) (hv : ∀ w ∈ ws, ValidLiteral w) :
    rulesFromPeg (Syntax.printRules (choiceOfWords ws).entries) = .ok (choiceOfWords ws) ∧
    rulesFromPeg (Syntax.printRules (codeRules ws).entries) = .ok (codeRules ws) := by
  have hc : PegExpr (wordChoice ws) := .or (by simpa using h2) fun e he => by
    obtain ⟨w, hw, rfl⟩ := List.mem_map.1 he
    exact .literal (hv w hw)
  have hm : ValidName c!"main" := validName_main
  refine ⟨C33_round_trip (List.cons_ne_nil _ _) fun r hr => ?_, C33_round_trip (List.cons_ne_nil _ _) fun r hr => ?_⟩
  · rw [List.mem_singleton.1 hr]
    exact ⟨hm, hc⟩
  · rw [List.mem_singleton.1 hr]
    exact ⟨hm, .star hc⟩

/-! ### Examples -/

/-- `in` before `int`: `int` is not accepted -/
example : (∃ t, parse c!"in" (choiceOfWords [c!"in", c!"int"]) = .ok t) ∧ ¬ ∃ t, parse c!"int" (choiceOfWords [c!"in", c!"int"]) = .ok t := by
  refine ⟨⟨_, C110_listed.2 ⟨by decide, ⟨[], [c!"int"], rfl, by simp⟩, rfl⟩⟩, fun h => ?_⟩
  have := (C110_order (ws := [c!"in", c!"int"]) (by decide) (by decide)).1 (by
    intro w hw
    simp only [List.mem_cons, List.not_mem_nil, or_false] at hw
    rcases hw with rfl | rfl
    · exact ⟨_, C110_listed.2 ⟨by decide, ⟨[], [c!"int"], rfl, by simp⟩, rfl⟩⟩
    · exact h)
  revert this
  decide

/-- the code `0`, `10`, `11` -/
example : parse c!"10110" (codeRules [c!"0", c!"10", c!"11"]) = .ok (.rule c!"main" [.val c!"10", .val c!"11", .val c!"0"]) :=
  (C110_decode (ws := [c!"0", c!"10", c!"11"]) (ms := [c!"10", c!"11", c!"0"]) (by decide) (by decide) (by decide) (by decide)).1

example : Syntax.printRules (codeRules [c!"0", c!"10", c!"11"]).entries = c!"main = (\"0\" / \"10\" / \"11\")*\n" := by decide

/-- `ab`, `a`, `bc` is a code, too, but `ab` begins with `a`: `abc` is `a`, `bc`, and not accepted -/
example : ∃ e, parse c!"abc" (codeRules [c!"ab", c!"a", c!"bc"]) = .err e := by
  refine (C110_linear (by decide)).1 _ (by decide) fun ms h => ?_
  have h1 := words_star (G := fun _ => none) (by decide) h
  have h2 : Peg (fun _ => none) (.rep (wordChoice [c!"ab", c!"a", c!"bc"]) 0 none) c!"abc" (.ok c!"c" [.val c!"ab"]) :=
    .rep_more (by simp) (.or_ok (.lit_ok c!"ab" c!"c")) (.rep_stop (by simp) (words_fail (ws := [c!"ab", c!"a", c!"bc"]) (s := c!"c") (by decide)))
  cases peg_det h1 h2

end DP
