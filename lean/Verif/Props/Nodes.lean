/-
C103: what building the nodes costs (src/parser/expression/mod.rs:179-327, src/parser/atom/mod.rs:60-160).
-/
import Verif.Model.Nodes
import Verif.Spec.Nodes
import Verif.Props.Calls
import Verif.Proofs.Regroup
import Verif.Proofs.CopiesLow

namespace DP
open Spec

theorem nodeWork_moved (a b : NodeWork) : (a + b).moved = a.moved + b.moved := rfl
theorem nodeWork_chars (a b : NodeWork) : (a + b).chars = a.chars + b.chars := rfl
theorem nodeWork_zero_moved : (0 : NodeWork).moved = 0 := rfl
theorem nodeWork_zero_chars : (0 : NodeWork).chars = 0 := rfl

/-- the number of nodes returned -/
def outLen : Out Error (Status × List Node) → Nat
  | .ok (_, v) => v.length
  | _ => 0

theorem height_le_heights {e : Expr} : ∀ {es : List Expr}, e ∈ es → height e ≤ heights es
  | x :: es, h => by
    rw [heights]
    rcases List.mem_cons.1 h with rfl | h
    · omega
    · have := height_le_heights h
      omega

theorem height_pos : ∀ e : Expr, 1 ≤ height e
  | .simple _ => by simp [height]
  | .and _ => by simp [height]
  | .or _ => by simp [height]
  | .not _ => by simp [height]
  | .rep _ _ _ => by simp [height]
  | .ruleName _ => by simp [height]

theorem moved_le (R : SetOfRules) {H : Nat} (hH : ∀ n e, R.get n = some e → height e ≤ H) : ∀ f,
    (∀ st n, (nodesRuleName R f st n).moved ≤ H * (callsRuleName R f st n).length) ∧
    (∀ st e k, height e + k ≤ H → (nodesExpr R f st e).moved + k * outLen (parseExpr R f st e) ≤ H * (callsExpr R f st e).length) ∧
    (∀ st es acc k, heights es + 1 + k ≤ H →
      (nodesAnd R f st es).moved + k * outLen (parseAnd R f st es acc) ≤ H * (callsAnd R f st es).length + k * acc.length) ∧
    (∀ st es acc k, heights es + k ≤ H → (nodesOr R f st es).moved + k * outLen (parseOr R f st es acc) ≤ H * (callsOr R f st es).length) ∧
    (∀ e mn mx st j acc k, height e + 1 + k ≤ H →
      (nodesRepeat R f e mn mx st j).moved + k * outLen (parseRepeat R f e mn mx st j acc) ≤ H * (callsRepeat R f e mn mx st j).length + k * acc.length) := by
  intro f
  induction f with
  | zero =>
    refine ⟨?_, ?_, ?_, ?_, ?_⟩ <;> intros
    · rw [nodesRuleName]; simp [nodeWork_zero_moved]
    · rw [nodesExpr, parseExpr]; simp [nodeWork_zero_moved, outLen]
    · rw [nodesAnd, parseAnd]; simp [nodeWork_zero_moved, outLen]
    · rw [nodesOr, parseOr]; simp [nodeWork_zero_moved, outLen]
    · rw [nodesRepeat, parseRepeat]; simp [nodeWork_zero_moved, outLen]
  | succ f ih =>
    obtain ⟨ih1, ih2, ih3, ih4, ih5⟩ := ih
    refine ⟨?_, ?_, ?_, ?_, ?_⟩
    · intro st n
      rw [nodesRuleName, callsRuleName]
      cases hg : R.get n with
      | none => simp [nodeWork_zero_moved]
      | some e =>
        have h1 := ih2 (if st.traceRules then st.pushRule (c!"r:" ++ n) else st) e 0 (hH n e hg)
        simp only [nodeWork_moved]
        cases parseExpr R f (if st.traceRules then st.pushRule (c!"r:" ++ n) else st) e with
        | ok x => simp only; omega
        | _ => simp only [nodeWork_zero_moved]; omega
    · intro st e k hk
      cases e with
      | simple a =>
        have hm : (nodesExpr R (f + 1) st (.simple a)).moved = 0 := by
          rw [nodesExpr]
          split <;> rfl
        have ho : outLen (parseExpr R (f + 1) st (.simple a)) ≤ 1 := by
          rw [parseExpr, parseAtomAsExpr]
          cases parseAtom st a <;> simp [outLen]
        rw [hm, callsExpr]
        have := Nat.mul_le_mul_left k ho
        simp [height] at hk ⊢
        omega
      | and es =>
        rw [height] at hk
        have := ih3 st es [] k hk
        rw [nodesExpr, parseExpr, callsExpr, List.length_cons, Nat.mul_add]
        simp at this
        omega
      | or es =>
        rw [height] at hk
        have := ih4 st es none k (by omega)
        rw [nodesExpr, parseExpr, callsExpr, List.length_cons, Nat.mul_add]
        omega
      | not e =>
        rw [height] at hk
        have h1 := ih2 st e 0 (by omega)
        have ho : outLen (parseExpr R (f + 1) st (.not e)) = 0 := by
          rw [parseExpr]
          cases parseExpr R f st e with
          | ok x => simp only [raise]; split <;> rfl
          | _ => rfl
        rw [ho, nodesExpr, callsExpr, List.length_cons, Nat.mul_add]
        omega
      | rep e mn mx =>
        rw [height] at hk
        have := ih5 e mn mx st 0 [] k hk
        rw [nodesExpr, parseExpr, callsExpr, List.length_cons, Nat.mul_add]
        simp at this
        omega
      | ruleName n =>
        rw [height] at hk
        have h1 := ih1 st n
        have ho : outLen (parseExpr R (f + 1) st (.ruleName n)) ≤ 1 := by
          rw [parseExpr]
          cases parseRuleName R f st n <;> simp [outLen]
        have := Nat.mul_le_mul_left k ho
        rw [nodesExpr, callsExpr, List.length_cons, Nat.mul_add]
        omega
    · intro st es acc k hk
      cases es with
      | nil => rw [nodesAnd, parseAnd, callsAnd]; simp [nodeWork_zero_moved, outLen]
      | cons e es =>
        rw [heights] at hk
        have h1 := ih2 st e (k + 1) (by omega)
        rw [nodesAnd, parseAnd, callsAnd, List.length_append, Nat.mul_add, nodeWork_moved]
        cases hx : parseExpr R f st e with
        | ok x =>
          obtain ⟨st', v⟩ := x
          have h2 := ih3 st' es (acc ++ v) k (by omega)
          rw [hx] at h1
          simp only [outLen, Nat.add_mul, Nat.one_mul] at h1
          rw [List.length_append, Nat.mul_add] at h2
          simp only [nodeWork_moved]
          omega
        | _ =>
          rw [hx] at h1
          simp only [outLen, nodeWork_zero_moved, List.length_nil, Nat.mul_zero, Nat.add_zero] at h1 ⊢
          omega
    · intro st es acc k hk
      cases es with
      | nil =>
        have ho : outLen (parseOr R (f + 1) st [] acc) = 0 := by
          cases acc with
          | some e => rw [parseOr]; rfl
          | none => rw [parseOr]; simp only [raise]; split <;> rfl
        rw [ho, nodesOr, callsOr]
        simp [nodeWork_zero_moved]
      | cons e es =>
        rw [heights] at hk
        have h1 := ih2 st e k (by omega)
        rw [nodesOr, parseOr, callsOr, List.length_append, Nat.mul_add, nodeWork_moved]
        cases hx : parseExpr R f st e with
        | err x =>
          rw [hx] at h1
          simp only [outLen, Nat.mul_zero, Nat.add_zero] at h1
          simp only
          split
          · simp only [outLen, nodeWork_zero_moved, List.length_nil]
            omega
          · have h2 := ih4 st es (deepErr acc x) k (by omega)
            omega
        | _ =>
          rw [hx] at h1
          simp only [nodeWork_zero_moved, List.length_nil]
          omega
    · intro e mn mx st j acc k hk
      have h1 := ih2 st e (k + 1) (by omega)
      rw [nodesRepeat, parseRepeat, callsRepeat, List.length_append, Nat.mul_add, nodeWork_moved]
      cases hx : parseExpr R f st e with
      | ok x =>
        obtain ⟨st', v⟩ := x
        rw [hx] at h1
        simp only [outLen, Nat.add_mul, Nat.one_mul] at h1
        simp only [nodeWork_moved]
        split
        · simp only [outLen, nodeWork_zero_moved, List.length_nil, List.length_append, Nat.mul_add]
          omega
        · have h2 := ih5 e mn mx st' (j + 1) (acc ++ v) k (by omega)
          rw [List.length_append, Nat.mul_add] at h2
          omega
      | err x =>
        rw [hx] at h1
        simp only [outLen, Nat.mul_zero, Nat.add_zero] at h1
        have ho : outLen (if bigMinBound mn j then if x.priority = .critical then .err x else .ok (st.setPotentialError x, acc) else .err x) ≤ acc.length := by
          split
          · split <;> simp [outLen]
          · simp [outLen]
        have := Nat.mul_le_mul_left k ho
        simp only [nodeWork_zero_moved, List.length_nil]
        omega
      | _ =>
        rw [hx] at h1
        simp only [outLen, nodeWork_zero_moved, List.length_nil, Nat.mul_zero, Nat.add_zero] at h1 ⊢
        omega

/-! ### Characters and nodes -/

/-- the characters of the nodes returned, and their number -/
def outChars : Out Error (Status × List Node) → Nat
  | .ok (_, v) => forestChars v
  | _ => 0
def outSize : Out Error (Status × List Node) → Nat
  | .ok (_, v) => forestSize v
  | _ => 0

theorem forestChars_append (l l' : List Node) : forestChars (l ++ l') = forestChars l + forestChars l' := by
  induction l with
  | nil => simp [forestChars]
  | cons n l ih => simp [forestChars, ih]; omega

theorem forestSize_app (l l' : List Node) : forestSize (l ++ l') = forestSize l + forestSize l' := by
  induction l with
  | nil => simp [forestSize]
  | cons n l ih => simp [forestSize, ih]; omega

theorem raise_not_ok {α : Type} (st : Status) (d p) (x : α) : (raise st d p : Out Error α) ≠ .ok x := by
  unfold raise
  split <;> simp

theorem atom_node {st : Status} {a : Atom} {x : Status × Node} (h : parseAtom st a = .ok x) :
    treeChars x.2 = labelChars x.2 ∧ labelChars x.2 ≤ ownChars (.simple a) ∧ treeSize x.2 = 1 := by
  cases a with
  | literal l =>
    rw [parseAtom, parseLiteral] at h
    split at h <;> cases h
    simp [treeChars, labelChars, ownChars, treeSize]
  | error l => rw [parseAtom, parseError] at h; exact absurd h (raise_not_ok _ _ _ _)
  | mtch cs rs =>
    rw [parseAtom, parseMatch] at h
    split at h
    · split at h
      · cases h; simp [treeChars, labelChars, ownChars, treeSize]
      · exact absurd h (raise_not_ok _ _ _ _)
    · exact absurd h (raise_not_ok _ _ _ _)
  | dot =>
    rw [parseAtom, parseDot] at h
    split at h
    · cases h; simp [treeChars, labelChars, ownChars, treeSize]
    · exact absurd h (raise_not_ok _ _ _ _)
  | eof =>
    rw [parseAtom, parseEof] at h
    split at h
    · exact absurd h (raise_not_ok _ _ _ _)
    · cases h; simp [treeChars, labelChars, ownChars, treeSize]

theorem chars_le (R : SetOfRules) {L : Nat} (hL : ∀ e ∈ rulesExprs R, ownChars e ≤ L) : ∀ f,
    (∀ st n, (nodesRuleName R f st n).chars ≤ L * (callsRuleName R f st n).length + n.length) ∧
    (∀ st e, e ∈ rulesExprs R → (nodesExpr R f st e).chars ≤ L * (callsExpr R f st e).length) ∧
    (∀ st es, (∀ e ∈ es, e ∈ rulesExprs R) → (nodesAnd R f st es).chars ≤ L * (callsAnd R f st es).length) ∧
    (∀ st es, (∀ e ∈ es, e ∈ rulesExprs R) → (nodesOr R f st es).chars ≤ L * (callsOr R f st es).length) ∧
    (∀ e mn mx st j, e ∈ rulesExprs R → (nodesRepeat R f e mn mx st j).chars ≤ L * (callsRepeat R f e mn mx st j).length) := by
  obtain ⟨w1, w2, w3, w4⟩ := whole_rules R
  intro f
  induction f with
  | zero =>
    refine ⟨?_, ?_, ?_, ?_, ?_⟩ <;> intros
    · rw [nodesRuleName]; simp [nodeWork_zero_chars]
    · rw [nodesExpr]; simp [nodeWork_zero_chars]
    · rw [nodesAnd]; simp [nodeWork_zero_chars]
    · rw [nodesOr]; simp [nodeWork_zero_chars]
    · rw [nodesRepeat]; simp [nodeWork_zero_chars]
  | succ f ih =>
    obtain ⟨ih1, ih2, ih3, ih4, ih5⟩ := ih
    refine ⟨?_, ?_, ?_, ?_, ?_⟩
    · intro st n
      rw [nodesRuleName, callsRuleName]
      cases hg : R.get n with
      | none => simp [nodeWork_zero_chars]
      | some e =>
        have h1 := ih2 (if st.traceRules then st.pushRule (c!"r:" ++ n) else st) e (List.mem_flatMap.2 ⟨(n, e), mem_of_get hg, subexprs_self e⟩)
        simp only [nodeWork_chars]
        cases parseExpr R f (if st.traceRules then st.pushRule (c!"r:" ++ n) else st) e with
        | ok x => simp only [labelChars]; omega
        | _ => simp only [nodeWork_zero_chars]; omega
    · intro st e he
      cases e with
      | simple a =>
        rw [nodesExpr, callsExpr]
        have := hL _ he
        split
        · rename_i st' node hx
          have := (atom_node hx).2.1
          simp only at this ⊢
          simp
          omega
        · simp [nodeWork_zero_chars]
      | and es => have := ih3 st es (w1 es he); rw [nodesExpr, callsExpr, List.length_cons, Nat.mul_add]; omega
      | or es => have := ih4 st es (w2 es he); rw [nodesExpr, callsExpr, List.length_cons, Nat.mul_add]; omega
      | not e => have := ih2 st e (w3 e he); rw [nodesExpr, callsExpr, List.length_cons, Nat.mul_add]; omega
      | rep e mn mx => have := ih5 e mn mx st 0 (w4 e mn mx he); rw [nodesExpr, callsExpr, List.length_cons, Nat.mul_add]; omega
      | ruleName n =>
        have h1 := ih1 st n
        have h2 := hL _ he
        rw [ownChars] at h2
        rw [nodesExpr, callsExpr, List.length_cons, Nat.mul_add]
        omega
    · intro st es he
      cases es with
      | nil => rw [nodesAnd, callsAnd]; simp [nodeWork_zero_chars]
      | cons e es =>
        have h1 := ih2 st e (he e (by simp))
        rw [nodesAnd, callsAnd, List.length_append, Nat.mul_add, nodeWork_chars]
        cases hx : parseExpr R f st e with
        | ok x =>
          have h2 := ih3 x.1 es (fun e h => he e (by simp [h]))
          simp only [nodeWork_chars]
          omega
        | _ => simp only [nodeWork_zero_chars]; omega
    · intro st es he
      cases es with
      | nil => rw [nodesOr, callsOr]; simp [nodeWork_zero_chars]
      | cons e es =>
        have h1 := ih2 st e (he e (by simp))
        rw [nodesOr, callsOr, List.length_append, Nat.mul_add, nodeWork_chars]
        cases hx : parseExpr R f st e with
        | err x =>
          have h2 := ih4 st es (fun e h => he e (by simp [h]))
          simp only
          split
          · simp only [nodeWork_zero_chars]; omega
          · omega
        | _ => simp only [nodeWork_zero_chars]; omega
    · intro e mn mx st j he
      have h1 := ih2 st e he
      rw [nodesRepeat, callsRepeat, List.length_append, Nat.mul_add, nodeWork_chars]
      cases hx : parseExpr R f st e with
      | ok x =>
        have h2 := ih5 e mn mx x.1 (j + 1) he
        simp only [nodeWork_chars]
        split
        · simp only [nodeWork_zero_chars]; omega
        · omega
      | _ => simp only [nodeWork_zero_chars]; omega

/-- what is returned has been written, and there was a call for each node -/
theorem returned_le (R : SetOfRules) : ∀ f,
    (∀ st n x, parseRuleName R f st n = .ok x → treeChars x.2 ≤ (nodesRuleName R f st n).chars ∧ treeSize x.2 ≤ (callsRuleName R f st n).length + 1) ∧
    (∀ st e, outChars (parseExpr R f st e) ≤ (nodesExpr R f st e).chars ∧ outSize (parseExpr R f st e) ≤ (callsExpr R f st e).length) ∧
    (∀ st es acc, outChars (parseAnd R f st es acc) ≤ (nodesAnd R f st es).chars + forestChars acc ∧
      outSize (parseAnd R f st es acc) ≤ (callsAnd R f st es).length + forestSize acc) ∧
    (∀ st es acc, outChars (parseOr R f st es acc) ≤ (nodesOr R f st es).chars ∧ outSize (parseOr R f st es acc) ≤ (callsOr R f st es).length) ∧
    (∀ e mn mx st j acc, outChars (parseRepeat R f e mn mx st j acc) ≤ (nodesRepeat R f e mn mx st j).chars + forestChars acc ∧
      outSize (parseRepeat R f e mn mx st j acc) ≤ (callsRepeat R f e mn mx st j).length + forestSize acc) := by
  intro f
  induction f with
  | zero =>
    refine ⟨?_, ?_, ?_, ?_, ?_⟩ <;> intros
    · rename_i h; rw [parseRuleName] at h; cases h
    · rw [parseExpr]; simp [outChars, outSize]
    · rw [parseAnd]; simp [outChars, outSize]
    · rw [parseOr]; simp [outChars, outSize]
    · rw [parseRepeat]; simp [outChars, outSize]
  | succ f ih =>
    obtain ⟨ih1, ih2, ih3, ih4, ih5⟩ := ih
    refine ⟨?_, ?_, ?_, ?_, ?_⟩
    · intro st n x h
      rw [parseRuleName] at h
      rw [nodesRuleName, callsRuleName]
      cases hg : R.get n with
      | none => rw [hg] at h; exact absurd h (raise_not_ok _ _ _ _)
      | some e =>
        rw [hg] at h
        simp only at h ⊢
        have h1 := ih2 (if st.traceRules then st.pushRule (c!"r:" ++ n) else st) e
        cases hx : parseExpr R f (if st.traceRules then st.pushRule (c!"r:" ++ n) else st) e with
        | ok y =>
          obtain ⟨st', v⟩ := y
          rw [hx] at h h1
          cases h
          simp only [outChars, outSize] at h1
          simp only [nodeWork_chars, treeChars, treeSize, labelChars]
          omega
        | _ => rw [hx] at h; cases h
    · intro st e
      cases e with
      | simple a =>
        rw [parseExpr, parseAtomAsExpr, nodesExpr, callsExpr]
        cases hx : parseAtom st a with
        | ok y =>
          obtain ⟨h1, _, h2⟩ := atom_node hx
          simp [outChars, outSize, forestChars, forestSize, h1, h2]
        | _ => simp [outChars, outSize]
      | and es =>
        have := ih3 st es []
        rw [parseExpr, nodesExpr, callsExpr, List.length_cons]
        simp only [forestChars, forestSize] at this
        omega
      | or es =>
        have := ih4 st es none
        rw [parseExpr, nodesExpr, callsExpr, List.length_cons]
        omega
      | not e =>
        have ho : outChars (parseExpr R (f + 1) st (.not e)) = 0 ∧ outSize (parseExpr R (f + 1) st (.not e)) = 0 := by
          rw [parseExpr]
          cases parseExpr R f st e with
          | ok x => simp only [raise]; split <;> exact ⟨rfl, rfl⟩
          | _ => exact ⟨rfl, rfl⟩
        rw [ho.1, ho.2]
        exact ⟨Nat.zero_le _, Nat.zero_le _⟩
      | rep e mn mx =>
        have := ih5 e mn mx st 0 []
        rw [parseExpr, nodesExpr, callsExpr, List.length_cons]
        simp only [forestChars, forestSize] at this
        omega
      | ruleName n =>
        rw [parseExpr, nodesExpr, callsExpr, List.length_cons]
        cases hx : parseRuleName R f st n with
        | ok y =>
          have := ih1 st n y hx
          simp only [outChars, outSize, forestChars, forestSize]
          omega
        | _ => simp [outChars, outSize]
    · intro st es acc
      cases es with
      | nil => rw [parseAnd, nodesAnd, callsAnd]; simp [outChars, outSize]
      | cons e es =>
        have h1 := ih2 st e
        rw [parseAnd, nodesAnd, callsAnd, List.length_append, nodeWork_chars]
        cases hx : parseExpr R f st e with
        | ok y =>
          obtain ⟨st', v⟩ := y
          have h2 := ih3 st' es (acc ++ v)
          rw [forestChars_append, forestSize_app] at h2
          rw [hx] at h1
          simp only [outChars, outSize] at h1
          simp only [nodeWork_chars]
          omega
        | _ => simp [outChars, outSize]
    · intro st es acc
      cases es with
      | nil =>
        have ho : outChars (parseOr R (f + 1) st [] acc) = 0 ∧ outSize (parseOr R (f + 1) st [] acc) = 0 := by
          cases acc with
          | some e => rw [parseOr]; exact ⟨rfl, rfl⟩
          | none => rw [parseOr]; simp only [raise]; split <;> exact ⟨rfl, rfl⟩
        rw [ho.1, ho.2]
        exact ⟨Nat.zero_le _, Nat.zero_le _⟩
      | cons e es =>
        have h1 := ih2 st e
        rw [parseOr, nodesOr, callsOr, List.length_append, nodeWork_chars]
        cases hx : parseExpr R f st e with
        | ok y =>
          rw [hx] at h1
          simp only
          omega
        | err x =>
          simp only
          split
          · simp [outChars, outSize]
          · have h2 := ih4 st es (deepErr acc x)
            omega
        | _ => simp [outChars, outSize]
    · intro e mn mx st j acc
      have h1 := ih2 st e
      rw [parseRepeat, nodesRepeat, callsRepeat, List.length_append, nodeWork_chars]
      cases hx : parseExpr R f st e with
      | ok y =>
        obtain ⟨st', v⟩ := y
        rw [hx] at h1
        simp only [outChars, outSize] at h1
        simp only [nodeWork_chars]
        split
        · simp only [outChars, outSize, forestChars_append, forestSize_app]
          omega
        · have h2 := ih5 e mn mx st' (j + 1) (acc ++ v)
          rw [forestChars_append, forestSize_app] at h2
          omega
      | err x =>
        simp only
        split
        · split
          · simp [outChars, outSize]
          · simp only [outChars, outSize]; omega
        · simp [outChars, outSize]
      | _ => simp [outChars, outSize]


/-- One more unit of fuel does not change the work of a finished run. -/
theorem nodes_step (R : SetOfRules) : ∀ f,
    (∀ st n, parseRuleName R f st n ≠ .diverge → nodesRuleName R (f + 1) st n = nodesRuleName R f st n) ∧
    (∀ st e, parseExpr R f st e ≠ .diverge → nodesExpr R (f + 1) st e = nodesExpr R f st e) ∧
    (∀ st es acc, parseAnd R f st es acc ≠ .diverge → nodesAnd R (f + 1) st es = nodesAnd R f st es) ∧
    (∀ st es acc, parseOr R f st es acc ≠ .diverge → nodesOr R (f + 1) st es = nodesOr R f st es) ∧
    (∀ e mn mx st k acc, parseRepeat R f e mn mx st k acc ≠ .diverge → nodesRepeat R (f + 1) e mn mx st k = nodesRepeat R f e mn mx st k) := by
  intro f
  induction f with
  | zero =>
    refine ⟨?_, ?_, ?_, ?_, ?_⟩ <;> intros <;> rename_i h <;> exfalso <;> apply h
    · rw [parseRuleName]
    · rw [parseExpr]
    · rw [parseAnd]
    · rw [parseOr]
    · rw [parseRepeat]
  | succ f ih =>
    obtain ⟨ih1, ih2, ih3, ih4, ih5⟩ := ih
    have fs : ∀ st e, parseExpr R f st e ≠ .diverge → parseExpr R (f + 1) st e = parseExpr R f st e := fun st e h =>
      parseExpr_mono (Nat.le_succ f) rfl h
    refine ⟨?_, ?_, ?_, ?_, ?_⟩
    · intro st n h
      rw [nodesRuleName, nodesRuleName]
      rw [parseRuleName] at h
      cases hg : R.get n with
      | none => rfl
      | some e =>
        rw [hg] at h
        simp only at h ⊢
        have hd : parseExpr R f (if st.traceRules then st.pushRule (c!"r:" ++ n) else st) e ≠ .diverge := fun hd => h (by rw [hd])
        rw [ih2 _ _ hd, fs _ _ hd]
    · intro st e h
      cases e with
      | simple a => rw [nodesExpr, nodesExpr]
      | and es => rw [nodesExpr, nodesExpr, ih3 st es [] (by rwa [parseExpr] at h)]
      | or es => rw [nodesExpr, nodesExpr, ih4 st es none (by rwa [parseExpr] at h)]
      | not e =>
        rw [nodesExpr, nodesExpr, ih2 st e (fun hd => h (by rw [parseExpr, hd]))]
      | rep e mn mx => rw [nodesExpr, nodesExpr, ih5 e mn mx st 0 [] (by rwa [parseExpr] at h)]
      | ruleName n =>
        rw [nodesExpr, nodesExpr, ih1 st n (fun hd => h (by rw [parseExpr, hd]))]
    · intro st es acc h
      cases es with
      | nil => rw [nodesAnd, nodesAnd]
      | cons e es =>
        have hd : parseExpr R f st e ≠ .diverge := fun hd => h (by rw [parseAnd, hd])
        rw [nodesAnd, nodesAnd, fs st e hd, ih2 st e hd]
        rw [parseAnd] at h
        cases hx : parseExpr R f st e with
        | ok x => rw [hx] at h; simp only at h ⊢; rw [ih3 _ _ _ h]
        | _ => rfl
    · intro st es acc h
      cases es with
      | nil => rw [nodesOr, nodesOr]
      | cons e es =>
        have hd : parseExpr R f st e ≠ .diverge := fun hd => h (by rw [parseOr, hd])
        rw [nodesOr, nodesOr, fs st e hd, ih2 st e hd]
        rw [parseOr] at h
        cases hx : parseExpr R f st e with
        | err x =>
          rw [hx] at h
          simp only at h ⊢
          split
          · rfl
          · rename_i hc
            rw [if_neg hc] at h
            rw [ih4 _ _ _ h]
        | _ => rfl
    · intro e mn mx st k acc h
      have hd : parseExpr R f st e ≠ .diverge := fun hd => h (by rw [parseRepeat, hd])
      rw [nodesRepeat, nodesRepeat, fs st e hd, ih2 st e hd]
      rw [parseRepeat] at h
      cases hx : parseExpr R f st e with
      | ok x =>
        rw [hx] at h
        simp only at h ⊢
        split
        · rfl
        · rename_i hc
          rw [if_neg hc] at h
          rw [ih5 _ _ _ _ _ _ h]
      | _ => rfl

theorem nodes_mono {R : SetOfRules} {f g : Nat} (h : f ≤ g) {st n} (hd : parseRuleName R f st n ≠ .diverge) :
    nodesRuleName R g st n = nodesRuleName R f st n := by
  obtain ⟨k, rfl⟩ := Nat.exists_eq_add_of_le h
  clear h
  induction k with
  | zero => rfl
  | succ k ih =>
    have := (nodes_step R (f + k)).1 st n (by rw [parseRuleName_mono (Nat.le_add_right f k) rfl hd]; exact hd)
    rw [Nat.add_succ, this, ih]

/-! ### The claims -/

/-- **C103**: the work is determined by the text and the rules. -/
theorem C103_unique {s : Str} {R : SetOfRules} {w w'} (h : Builds s R w) (h' : Builds s R w') : w = w' := by
  obtain ⟨f, hd, rfl⟩ := h
  obtain ⟨g, hd', rfl⟩ := h'
  rcases Nat.le_total f g with hfg | hfg
  · exact (nodes_mono hfg hd).symm
  · exact nodes_mono hfg hd'

/-- **C103**: and defined whenever `parse` returns. -/
theorem C103_exists (s : Str) (R : SetOfRules) : parse s R ≠ .diverge ↔ ∃ w, Builds s R w := by
  rw [C102_exists]
  constructor
  · rintro ⟨l, f, hd, _⟩
    exact ⟨_, f, hd, rfl⟩
  · rintro ⟨w, f, hd, _⟩
    exact ⟨_, f, hd, rfl⟩

/-- **C103**: if no rule is nested deeper than `H`, at most `H` nodes are moved for each call of `parse_expr`. -/
theorem C103_moved {s : Str} {R : SetOfRules} {w m} (h : Builds s R w) (hm : Uses s R m) {H : Nat}
    (hH : ∀ n e, R.get n = some e → height e ≤ H) : w.moved ≤ H * m.calls := by
  obtain ⟨f, hd, rfl⟩ := h
  cases (C53_uses _ _).2 _ _ hm ⟨f, hd, rfl⟩
  rw [used, ← (calls_count R f).1]
  exact (moved_le R hH f).1 _ _

/-- **C103**: if no literal, no name used (nor the three letters of `EOF`) is longer than `L`, at most `L` characters are written
for each call, and the name `main`. -/
theorem C103_chars {s : Str} {R : SetOfRules} {w m} (h : Builds s R w) (hm : Uses s R m) {L : Nat}
    (hL : ∀ e ∈ rulesExprs R, ownChars e ≤ L) : w.chars ≤ L * m.calls + 4 := by
  obtain ⟨f, hd, rfl⟩ := h
  cases (C53_uses _ _).2 _ _ hm ⟨f, hd, rfl⟩
  rw [used, ← (calls_count R f).1]
  exact (chars_le R hL f).1 _ _

/-- **C103**: a tree that is returned has at most one node for each call, and the root; all its characters have been written
once. -/
theorem C103_tree {s : Str} {R : SetOfRules} {t w m} (ht : parse s R = .ok t) (h : Builds s R w) (hm : Uses s R m) :
    treeSize t ≤ m.calls + 1 ∧ treeChars t ≤ w.chars := by
  obtain ⟨f, hd, rfl⟩ := h
  cases (C53_uses _ _).2 _ _ hm ⟨f, hd, rfl⟩
  rw [used, ← (calls_count R f).1]
  have hp : parseWithDebugF f s R false = .ok t := by
    have hnd : parseWithDebugF f s R false ≠ .diverge := by
      intro hx
      rw [parseWithDebugF] at hx
      simp only [Bool.false_eq_true, if_false] at hx
      cases hy : parseMain R f (.init s) with
      | ok y =>
        rw [hy] at hx
        simp only at hx
        split at hx
        · cases hx
        · split at hx
          · cases hx
          · exact absurd hx (by unfold raise; split <;> simp)
      | err e => rw [hy] at hx; cases hx
      | panic => rw [hy] at hx; cases hx
      | diverge => exact hd hy
    rw [← ht]
    exact (parse_of_fuel rfl hnd).symm
  rw [parseWithDebugF] at hp
  simp only [Bool.false_eq_true, if_false] at hp
  cases hy : parseMain R f (.init s) with
  | ok y =>
    rw [hy] at hp
    simp only at hp
    have h1 := (returned_le R f).1 _ _ y hy
    split at hp
    · cases hp; exact ⟨h1.2, h1.1⟩
    · split at hp
      · cases hp
      · exact absurd hp (raise_not_ok _ _ _ _)
  | err e => rw [hy] at hp; cases hp
  | panic => rw [hy] at hp; cases hp
  | diverge => exact absurd hy hd

/-! ### The factor is needed -/

/-- `.*` inside `k` sequences of one expression each -/
def wrapped : Nat → Expr
  | 0 => .rep (.simple .dot) 0 none
  | k + 1 => .and [wrapped k]
def wrappedRules (k : Nat) : SetOfRules := ⟨[(c!"main", wrapped k)]⟩

theorem wrapped_dots (R : SetOfRules) {s : Str} (ha : Ascii s) : ∀ (r : Str) (f : Nat) (st : Status) (j : Nat) (acc : List Node), Inv s st → st.itParsing = r → r.length + 2 ≤ f →
    ∃ st', parseRepeat R f (.simple .dot) 0 none st j acc = .ok (st', acc ++ r.map fun c => .val [c]) ∧
      nodesRepeat R f (.simple .dot) 0 none st j = ⟨r.length, r.length⟩
  | [], f + 2, st, j, acc, hI, hr, hf => by
    have hg : getChar st = .error st := by rw [getChar, hr]
    obtain ⟨e, he⟩ : ∃ e, (raise st .dot .normal : Out Error (Status × Node)) = .err e := by
      obtain ⟨e, he, _⟩ := raise_ascii (α := Status × Node) (d := .dot) (p := .normal) ha hI
      exact ⟨e, he⟩
    have hx : parseExpr R (f + 1) st (.simple .dot) = .err e := by
      rw [parseExpr, parseAtomAsExpr, parseAtom, parseDot, hg]
      simp only [he]
    refine ⟨st.setPotentialError e, by rw [parseRepeat, hx]; simp only [bigMinBound, raise_prio he]; simp, ?_⟩
    rw [nodesRepeat, hx, nodesExpr, parseAtom, parseDot, hg]
    simp only [he]
    rfl
  | c :: r, f + 2, st, j, acc, hI, hr, hf => by
    obtain ⟨st', hg, hr'⟩ := getChar_cons hr
    have hx : parseExpr R (f + 1) st (.simple .dot) = .ok (st', [.val [c]]) := by
      rw [parseExpr, parseAtomAsExpr, parseAtom, parseDot, hg]
    obtain ⟨st2, h1, h2⟩ := wrapped_dots R ha r (f + 1) st' (j + 1) (acc ++ [.val [c]]) (inv_get hI hg) hr' (by simp at hf ⊢; omega)
    refine ⟨st2, by rw [parseRepeat, hx]; simp only [touchMaxBound]; simp [h1], ?_⟩
    rw [nodesRepeat, hx, nodesExpr, parseAtom, parseDot, hg]
    simp only [touchMaxBound, h2]
    show NodeWork.mk _ _ = _
    simp [labelChars, nodeWork_moved, nodeWork_chars]
    omega

theorem wrapped_run (R : SetOfRules) {s : Str} (ha : Ascii s) : ∀ k f, s.length + 3 + 2 * k ≤ f →
    ∃ st', parseExpr R f (.init s) (wrapped k) = .ok (st', s.map fun c => .val [c]) ∧
      nodesExpr R f (.init s) (wrapped k) = ⟨(k + 1) * s.length, s.length⟩
  | 0, f + 1, hf => by
    obtain ⟨st', h1, h2⟩ := wrapped_dots R ha s f (.init s) 0 [] (inv_init s) rfl (by omega)
    exact ⟨st', by rw [wrapped, parseExpr, h1]; rfl, by rw [wrapped, nodesExpr, h2]; simp⟩
  | k + 1, f, hf => by
    obtain ⟨f, rfl⟩ : ∃ g, f = g + 3 := ⟨f - 3, by omega⟩
    obtain ⟨st', h1, h2⟩ := wrapped_run R ha k (f + 1) (by omega)
    refine ⟨st', by rw [wrapped, parseExpr, parseAnd, h1]; simp [parseAnd], ?_⟩
    rw [wrapped, nodesExpr, nodesAnd, h1, h2]
    simp only [nodesAnd]
    show NodeWork.mk _ _ = _
    simp [nodeWork_moved, nodeWork_chars, nodeWork_zero_moved, nodeWork_zero_chars, Nat.add_mul]

/-- **C103**: the factor is needed: with `.*` inside `k` sequences each node is moved `k + 1` times. -/
theorem C103_attained {s : Str} (ha : Ascii s) (k : Nat) : Builds s (wrappedRules k) ⟨(k + 1) * s.length, s.length + 4⟩ := by
  have hg : (wrappedRules k).get c!"main" = some (wrapped k) := by
    simp [wrappedRules, SetOfRules.get]
  obtain ⟨st', h1, h2⟩ := wrapped_run (wrappedRules k) ha k (s.length + 3 + 2 * k) (Nat.le_refl _)
  have ht : (Status.init s).traceRules = false := rfl
  refine ⟨s.length + 3 + 2 * k + 1, ?_, ?_⟩
  · rw [parseMain, parseRuleName, hg]
    simp only [ht, Bool.false_eq_true, if_false, h1]
    simp
  · rw [nodesRuleName, hg]
    simp only [ht, Bool.false_eq_true, if_false, h1, h2]
    show NodeWork.mk _ _ = _
    simp [labelChars]

/-! ### Examples -/

example : Builds c!"abc" (wrappedRules 4) ⟨15, 7⟩ := C103_attained (by decide) 4

/-- on `ac`, `'a' 'b' / 'a' 'c'` moves the three nodes it makes in its two sequences -/
example : Builds c!"ac" acRules ⟨3, 7⟩ := ⟨20, by decide +kernel, by decide +kernel⟩

example {w m} (h : Builds c!"ac" acRules w) (hm : Uses c!"ac" acRules m) : w.moved ≤ 3 * m.calls :=
  C103_moved h hm (by
    intro n e hg
    have := mem_of_get hg
    simp only [acRules, List.mem_singleton, Prod.mk.injEq] at this
    rw [this.2]
    decide)

example {w m} (h : Builds c!"ac" acRules w) (hm : Uses c!"ac" acRules m) : w.chars ≤ 1 * m.calls + 4 :=
  C103_chars h hm (by decide)

example {t m} (ht : parse c!"ac" acRules = .ok t) (hm : Uses c!"ac" acRules m) : treeChars t ≤ 7 :=
  (C103_tree (w := ⟨3, 7⟩) ht ⟨20, by decide +kernel, by decide +kernel⟩ hm).2

end DP
