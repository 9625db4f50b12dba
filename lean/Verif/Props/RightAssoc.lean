/-
C112: an operator that groups to the right.
-/
import Verif.Props.Numerals

namespace DP
open Spec

/-- `main = num "^" main / num`, `num = [0-9]+` -/
def towerRules : SetOfRules :=
  ⟨[(c!"num", .rep (.simple (oneOf '0' '9')) 1 none),
    (c!"main", .or [.and [.ruleName c!"num", .simple (.literal c!"^"), .ruleName c!"main"], .ruleName c!"num"])]⟩

/-- the operands with the operator between them -/
def towerText : List Str → Str
  | [] => []
  | [d] => d
  | d :: ds => d ++ '^' :: towerText ds

/-- the node of an operand -/
def operandNode (d : Str) : Node := .rule c!"num" (d.map fun c => .val [c])

/-- the first operand, and all the others below it -/
def towerTree : List Str → Node
  | [] => .eof
  | [d] => .rule c!"main" [operandNode d]
  | d :: ds => .rule c!"main" [operandNode d, .val c!"^", towerTree ds]

/-- one or more decimal digits -/
def Operand (d : Str) : Prop := d ≠ [] ∧ ∀ c ∈ d, 48 ≤ c.toNat ∧ c.toNat ≤ 57

abbrev TG : Str → Option Expr := denotes towerRules

theorem tower_num : TG c!"num" = some (.rep (.simple (oneOf '0' '9')) 1 none) := by decide

theorem tower_main : TG c!"main" = some (.or [.and [.ruleName c!"num", .simple (.literal c!"^"), .ruleName c!"main"], .ruleName c!"num"]) := by
  decide

theorem operand_star {G : Str → Option Expr} {r : Str} (hr : ∀ c ∈ r.head?, ¬ (48 ≤ c.toNat ∧ c.toNat ≤ 57)) :
    ∀ {d : Str}, (∀ c ∈ d, 48 ≤ c.toNat ∧ c.toNat ≤ 57) →
      Peg G (.rep (.simple (oneOf '0' '9')) 0 none) (d ++ r) (.ok r (d.map fun c => .val [c]))
  | [], _ => by
    refine .rep_stop (by simp) ?_
    cases r with
    | nil => exact .class_end _ _
    | cons x r => exact .class_fail _ _ _ _ fun h => hr x rfl (inOneOf.1 h)
  | c :: d, h => .rep_more (by simp) (.class_ok [] [('0', '9')] c (d ++ r) (inOneOf.2 (h c List.mem_cons_self)))
      (operand_star hr fun x hx => h x (List.mem_cons_of_mem _ hx))

theorem operand_num {d r : Str} (h : Operand d) (hr : ∀ c ∈ r.head?, ¬ (48 ≤ c.toNat ∧ c.toNat ≤ 57)) :
    Peg TG (.ruleName c!"num") (d ++ r) (.ok r [operandNode d]) := by
  obtain ⟨h0, h⟩ := h
  cases d with
  | nil => exact absurd rfl h0
  | cons c d =>
    refine .call_ok tower_num ?_
    exact .rep_more (by simp) (.class_ok [] [('0', '9')] c (d ++ r) (inOneOf.2 (h c List.mem_cons_self)))
      (operand_star hr fun x hx => h x (List.mem_cons_of_mem _ hx))

theorem num_operand {s r : Str} {ns : List Node} (h : Peg TG (.ruleName c!"num") s (.ok r ns)) :
    ∃ d, Operand d ∧ s = d ++ r ∧ ns = [operandNode d] := by
  cases h with
  | call_ok hG h =>
    rw [tower_num] at hG
    cases hG
    cases h with
    | rep_more _ h1 h2 =>
      cases h1 with
      | class_ok _ _ c q hc =>
        obtain ⟨ds, q', hs, hd, -, hp⟩ := digits_run (G := TG) _
        cases peg_det h2 hp
        refine ⟨c :: ds, ⟨List.cons_ne_nil _ _, fun x hx => ?_⟩, by rw [hs]; rfl, rfl⟩
        rcases List.mem_cons.1 hx with rfl | hx
        · exact inOneOf.1 hc
        · exact hd x hx

theorem tower_sound : ∀ (n : Nat) {s : Str} {ns : List Node}, s.length ≤ n → Peg TG (.ruleName c!"main") s (.ok [] ns) →
    ∃ ds, ds ≠ [] ∧ (∀ d ∈ ds, Operand d) ∧ s = towerText ds ∧ ns = [towerTree ds]
  | n, s, ns, hn, h => by
    cases h with
    | call_ok hG h =>
      rw [tower_main] at hG
      cases hG
      cases h with
      | or_ok h =>
        obtain ⟨q1, n1, m1, h1, ha, rfl⟩ := and_cons.1 h
        obtain ⟨q2, n2, m2, h2, hb, rfl⟩ := and_cons.1 ha
        obtain ⟨q3, n3, m3, h3, hc, rfl⟩ := and_cons.1 hb
        cases hc
        obtain ⟨d, hd, rfl, rfl⟩ := num_operand h1
        have h2' : q1 = '^' :: q2 ∧ n2 = [.val c!"^"] := by
          cases h2
          exact ⟨rfl, rfl⟩
        obtain ⟨rfl, rfl⟩ := h2'
        cases n with
        | zero => simp at hn
        | succ n =>
          obtain ⟨ds, h0, hds, rfl, rfl⟩ := tower_sound n (by simp at hn; omega) h3
          cases ds with
          | nil => exact absurd rfl h0
          | cons e ds =>
            refine ⟨d :: e :: ds, List.cons_ne_nil _ _, fun x hx => ?_, rfl, rfl⟩
            rcases List.mem_cons.1 hx with rfl | hx
            · exact hd
            · exact hds x hx
      | or_next _ h =>
        cases h with
        | or_next _ h => cases h
        | or_ok h =>
          obtain ⟨d, hd, rfl, rfl⟩ := num_operand h
          exact ⟨[d], List.cons_ne_nil _ _, by simpa using hd, by simp [towerText], rfl⟩

theorem tower_complete : ∀ {ds : List Str}, ds ≠ [] → (∀ d ∈ ds, Operand d) →
    Peg TG (.ruleName c!"main") (towerText ds) (.ok [] [towerTree ds])
  | [], h, _ => absurd rfl h
  | [d], _, h => by
    have h1 := operand_num (r := []) (h d (by simp)) (by simp)
    rw [List.append_nil] at h1
    refine .call_ok tower_main (.or_next (.and_tail_fail h1 (.and_fail (.lit_fail _ _ (by simp)))) (.or_ok h1))
  | d :: e :: ds, _, h => by
    have h1 := operand_num (r := '^' :: towerText (e :: ds)) (h d (by simp)) (by simp)
    have ih := tower_complete (ds := e :: ds) (List.cons_ne_nil _ _) fun x hx => h x (List.mem_cons_of_mem _ hx)
    exact .call_ok tower_main (.or_ok (.and_ok h1 (.and_ok (.lit_ok c!"^" _) (.and_ok ih (.and_nil [])))))

theorem towerText_ascii : ∀ {ds : List Str}, (∀ d ∈ ds, Operand d) → Ascii (towerText ds)
  | [], _ => by intro c hc; cases hc
  | [d], h => fun c hc => by have := (h d (by simp)).2 c hc; omega
  | d :: e :: ds, h => fun c hc => by
    rcases List.mem_append.1 (show c ∈ d ++ '^' :: towerText (e :: ds) from hc) with hc | hc
    · have := (h d (by simp)).2 c hc; omega
    · rcases List.mem_cons.1 hc with rfl | hc
      · decide
      · exact towerText_ascii (ds := e :: ds) (fun x hx => h x (List.mem_cons_of_mem _ hx)) c hc

/-- **C112**: with `main = num "^" main / num` exactly the operands with `^` between them are accepted; each operator
has one operand at its left, and everything that follows at its right. -/
theorem C112_right (s : Str) (t : Node) :
    parse s towerRules = .ok t ↔ ∃ ds, ds ≠ [] ∧ (∀ d ∈ ds, Operand d) ∧ s = towerText ds ∧ t = towerTree ds := by
  rw [parse_iff]
  constructor
  · rintro ⟨_, h⟩
    obtain ⟨ds, h0, hd, hs, ht⟩ := tower_sound s.length (Nat.le_refl _) h
    exact ⟨ds, h0, hd, hs, (List.cons.inj ht).1⟩
  · rintro ⟨ds, h0, hd, rfl, rfl⟩
    exact ⟨towerText_ascii hd, tower_complete h0 hd⟩

theorem operandNode_inj {d e : Str} (h : operandNode d = operandNode e) : d = e := by
  injection h with _ h
  exact List.map_injective_iff.2 (fun a b hab => by injection hab with hab; exact (List.cons.inj hab).1) h

theorem towerTree_inj : ∀ {ds es : List Str}, ds ≠ [] → es ≠ [] → towerTree ds = towerTree es → ds = es
  | [], _, h, _, _ => absurd rfl h
  | _, [], _, h, _ => absurd rfl h
  | [d], [e], _, _, h => by
    injection h with _ h
    rw [operandNode_inj (List.cons.inj h).1]
  | [_], _ :: _ :: _, _, _, h => by
    injection h with _ h
    cases (List.cons.inj h).2
  | _ :: _ :: _, [_], _, _, h => by
    injection h with _ h
    cases (List.cons.inj h).2
  | d :: d' :: ds, e :: e' :: es, _, _, h => by
    injection h with _ h
    have h1 := List.cons.inj h
    have h2 := (List.cons.inj (List.cons.inj h1.2).2).1
    rw [operandNode_inj h1.1, towerTree_inj (List.cons_ne_nil _ _) (List.cons_ne_nil _ _) h2]

/-- **C112**: the operands can be read off the text in one way only. -/
theorem C112_one_way {ds es : List Str} (h0 : ds ≠ []) (h1 : es ≠ []) (hd : ∀ d ∈ ds, Operand d) (he : ∀ d ∈ es, Operand d)
    (h : towerText ds = towerText es) : ds = es := by
  have a := (C112_right (towerText ds) _).2 ⟨ds, h0, hd, rfl, rfl⟩
  have b := (C112_right (towerText ds) _).2 ⟨es, h1, he, h, rfl⟩
  rw [a] at b
  injection b with b
  exact towerTree_inj h0 h1 b

/-- **C112**: every other ASCII text is an error. -/
theorem C112_refused {s : Str} (ha : Ascii s) (h : ∀ ds, ds ≠ [] → (∀ d ∈ ds, Operand d) → s ≠ towerText ds) :
    ∃ e, parse s towerRules = .err e := by
  have w : WellFormed (denotes towerRules) := wf_of_check (nul := []) (ranks := [c!"num", c!"main"]) (by decide +kernel)
  rcases C12_total_on_ascii w ha with ⟨t, ht⟩ | h1
  · obtain ⟨ds, h0, hd, hs, -⟩ := (C112_right s t).1 ht
    exact absurd hs (h ds h0 hd)
  · exact h1

/-- **C112**: the PEG text of these rules. -/
theorem C112_peg : rulesFromPeg c!"main = num \"^\" main / num\nnum = [0-9]+\n" = .ok towerRules :=
  rulesFromPeg_of 200 (by decide +kernel)

/-! ### Example -/

example : parse c!"2^3^4" towerRules = .ok (.rule c!"main" [.rule c!"num" [.val c!"2"], .val c!"^",
    .rule c!"main" [.rule c!"num" [.val c!"3"], .val c!"^", .rule c!"main" [.rule c!"num" [.val c!"4"]]]]) :=
  (C112_right _ _).2 ⟨[c!"2", c!"3", c!"4"], by decide, by simp [Operand], by decide, by decide⟩

end DP
