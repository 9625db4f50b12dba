/-
Other characters: the runs correspond step by step.
-/
import Verif.Spec.Swap
import Verif.Proofs.Sound
import Verif.Proofs.Regroup

namespace DP
open Spec

section
variable (α : Atom → Atom) (π : Char → Char)

def swapStatus (st : Status) : Status :=
  { st with text2parse := st.text2parse.map π, itParsing := st.itParsing.map π,
            potentialError := st.potentialError.map (swapError α π) }

def swapRun : Out Error (Status × List Node) → Out Error (Status × List Node)
  | .ok x => .ok (swapStatus α π x.1, swapNodes π x.2)
  | .err e => .err (swapError α π e)
  | .panic => .panic
  | .diverge => .diverge

def swapRule : Out Error (Status × Node) → Out Error (Status × Node)
  | .ok x => .ok (swapStatus α π x.1, swapNode π x.2)
  | .err e => .err (swapError α π e)
  | .panic => .panic
  | .diverge => .diverge

def swapSt : Out Error Status → Out Error Status
  | .ok st => .ok (swapStatus α π st)
  | .err e => .err (swapError α π e)
  | .panic => .panic
  | .diverge => .diverge

theorem swapNodes_append (a b) : swapNodes π (a ++ b) = swapNodes π a ++ swapNodes π b := by
  induction a with
  | nil => rfl
  | cons x xs ih => simp only [List.cons_append, swapNodes, ih]

variable {α} {π} (hπ : Harmless π)
include hπ

theorem swap_byteLen (t : Str) : byteLen (t.map π) = byteLen t := by
  induction t with
  | nil => rfl
  | cons c t ih => rw [List.map_cons, byteLen, byteLen, ih, hπ.bytes]

theorem swap_dropBytes (t : Str) : ∀ n, dropBytes n (t.map π) = (dropBytes n t).map (List.map π) := by
  induction t with
  | nil => intro n; cases n <;> rfl
  | cons c t ih =>
    intro n
    cases n with
    | zero => rw [dropBytes, dropBytes]; rfl
    | succ n =>
      rw [List.map_cons, dropBytes, dropBytes, hπ.bytes]
      split
      · exact ih _
      · rfl

theorem swap_takeBytes (t : Str) : ∀ n, takeBytes n (t.map π) = (takeBytes n t).map (List.map π) := by
  induction t with
  | nil => intro n; cases n <;> rfl
  | cons c t ih =>
    intro n
    cases n with
    | zero => rw [takeBytes, takeBytes]; rfl
    | succ n =>
      rw [List.map_cons, takeBytes, takeBytes, hπ.bytes]
      split
      · rw [ih, Option.map_map, Option.map_map]; rfl
      · rfl

theorem swap_slice (t : Str) (a b : Nat) : slice (t.map π) a b = (slice t a b).map (List.map π) := by
  unfold slice
  split
  · rw [swap_dropBytes hπ]
    cases dropBytes a t with
    | none => rfl
    | some u => exact swap_takeBytes hπ u _
  · rfl

theorem swap_line (t : Str) : (t.map π).takeWhile (fun ch => ch != '\n' && ch != '\r') = (t.takeWhile (fun ch => ch != '\n' && ch != '\r')).map π := by
  induction t with
  | nil => rfl
  | cons c t ih =>
    have : (π c != '\n' && π c != '\r') = (c != '\n' && c != '\r') := by
      rw [Bool.eq_iff_iff]
      simp [hπ.newline c, hπ.carriage c]
    rw [List.map_cons, List.takeWhile_cons, List.takeWhile_cons, this]
    split
    · rw [List.map_cons, ih]
    · rfl

theorem swap_fromStatus (st d p) : fromStatus (swapStatus α π st) (swapDescr α d) p = (fromStatus st d p).map (swapError α π) := by
  unfold fromStatus
  show (slice (st.text2parse.map π) st.pos.startLine st.pos.n).map _ = _
  rw [swap_slice hπ, Option.map_map, Option.map_map]
  congr 1
  funext lb
  show ({ .. } : Error) = { .. }
  simp only [swapStatus]
  rw [swap_line hπ]

theorem swap_raise_run (st d p) : (raise (swapStatus α π st) (swapDescr α d) p : Out Error (Status × List Node)) = swapRun α π (raise st d p) := by
  unfold raise
  rw [swap_fromStatus hπ]
  cases fromStatus st d p <;> rfl

theorem swap_raise_rule (st d p) : (raise (swapStatus α π st) (swapDescr α d) p : Out Error (Status × Node)) = swapRule α π (raise st d p) := by
  unfold raise
  rw [swap_fromStatus hπ]
  cases fromStatus st d p <;> rfl

theorem swap_raise_st (st d p) : (raise (swapStatus α π st) (swapDescr α d) p : Out Error Status) = swapSt α π (raise st d p) := by
  unfold raise
  rw [swap_fromStatus hπ]
  cases fromStatus st d p <;> rfl

theorem swap_getChar (st) : getChar (swapStatus α π st) = match getChar st with
    | .ok x => .ok (swapStatus α π x.1, π x.2)
    | .error st => .error (swapStatus α π st) := by
  unfold getChar
  show (match st.itParsing.map π with | [] => _ | ch :: rest => _) = _
  cases h : st.itParsing with
  | nil => rfl
  | cons c r =>
    simp only [List.map_cons]
    have e1 : (π c = '\n') = (c = '\n') := propext (hπ.newline c)
    have e2 : (π c = '\r') = (c = '\r') := propext (hπ.carriage c)
    simp only [e1, e2]
    rfl

theorem swap_literal {lit : Str} (ha : α (.literal lit) = .literal (lit.map π)) : ∀ (l : Str) (st : Status), (∀ a ∈ l, ∀ c, π c = π a → c = a) →
    parseLiteralLoop (lit.map π) (swapStatus α π st) (l.map π) = swapSt α π (parseLiteralLoop lit st l) := by
  have hd : Descr.literal (lit.map π) = swapDescr α (.literal lit) := by rw [swapDescr, ha]; rfl
  intro l
  induction l with
  | nil => intro st _; rfl
  | cons ch l ih =>
    intro st hl
    rw [List.map_cons, parseLiteralLoop, parseLiteralLoop]
    unfold parseChar
    rw [swap_getChar hπ]
    rcases getChar st with st' | ⟨st', ch'⟩
    · simp only [hd]; exact swap_raise_st hπ st' (.literal lit) .normal
    · simp only
      by_cases h : ch = ch'
      · rw [if_pos h, if_pos (congrArg π h)]; exact ih st' (fun a ha => hl a (by simp [ha]))
      · rw [if_neg h, if_neg (fun h' => h (hl ch (by simp) ch' h'.symm).symm)]
        simp only [hd]
        exact swap_raise_st hπ st' (.literal lit) .normal

theorem swap_atom (st a) (ha : Mirrors π a (α a)) : parseAtom (swapStatus α π st) (α a) = swapRule α π (parseAtom st a) := by
  generalize he : α a = a' at ha
  cases ha with
  | @literal l ha =>
    rw [parseAtom, parseAtom, parseLiteral, parseLiteral, swap_literal hπ he l st ha]
    cases parseLiteralLoop l st l <;> rfl
  | error m m' =>
    have := swap_raise_rule hπ st (.custom m) .critical (α := α)
    rwa [swapDescr, he] at this
  | @mtch cs rs cs' rs' ha =>
    have hd : Descr.mtch cs' rs' = swapDescr α (.mtch cs rs) := by rw [swapDescr, he]; rfl
    rw [parseAtom, parseAtom, parseMatch, parseMatch, swap_getChar hπ, hd]
    rcases getChar st with st' | ⟨st', ch'⟩
    · exact swap_raise_rule hπ st' (.mtch cs rs) .normal
    · have : matchChar cs' rs' (π ch') = matchChar cs rs ch' := by
        rw [Bool.eq_iff_iff, matchChar_iff, matchChar_iff]; exact ha ch'
      simp only [this]
      split
      · rfl
      · exact swap_raise_rule hπ st' (.mtch cs rs) .normal
  | dot =>
    have hd : Descr.dot = swapDescr α .dot := by rw [swapDescr, he]; rfl
    rw [parseAtom, parseAtom, parseDot, parseDot, swap_getChar hπ]
    rcases getChar st with st' | ⟨st', ch'⟩
    · have := swap_raise_rule hπ st' .dot .normal (α := α)
      rwa [← hd] at this
    · rfl
  | eof ha =>
    have hd : Descr.eof = swapDescr α .eof := by rw [swapDescr, he]; rfl
    rw [parseAtom, parseAtom, parseEof, parseEof, swap_getChar hπ]
    rcases getChar st with st' | ⟨st', ch'⟩
    · simp only [swapRule, swapNode]
      rw [ha]
    · have := swap_raise_rule hπ st' .eof .normal (α := α)
      rwa [← hd] at this

theorem swap_atomAsExpr (st a) (ha : Mirrors π a (α a)) : parseAtomAsExpr (swapStatus α π st) (α a) = swapRun α π (parseAtomAsExpr st a) := by
  unfold parseAtomAsExpr
  rw [swap_atom hπ st a ha]
  cases parseAtom st a <;> rfl

omit hπ in
theorem swap_deepErr (acc : Option Error) (e : Error) :
    deepErr (acc.map (swapError α π)) (swapError α π e) = (deepErr acc e).map (swapError α π) := by
  cases acc with
  | none => rfl
  | some e1 =>
    simp only [deepErr, Option.map_some]
    show (match e1.priority.gt e.priority, decide (e1.pos.n > e.pos.n) with | true, _ => _ | false, true => _ | false, false => _) = _
    cases e1.priority.gt e.priority <;> cases decide (e1.pos.n > e.pos.n) <;> rfl

omit hπ in
theorem swap_push (st : Status) (n : Str) :
    (if (swapStatus α π st).traceRules then (swapStatus α π st).pushRule (c!"r:" ++ n) else swapStatus α π st) =
      swapStatus α π (if st.traceRules then st.pushRule (c!"r:" ++ n) else st) := by
  show (if st.traceRules then _ else _) = _
  cases st.traceRules <;> rfl

variable {R R' : SetOfRules} {N : Str → Prop}

theorem swap_runs (hN : ∀ n, N n → ∀ e, R.get n = some e → (∀ m, Refs e m → N m) ∧ ∀ a, HasAtom e a → Mirrors π a (α a))
    (hR : ∀ n, N n → R'.get n = (R.get n).map (swapExpr α)) : ∀ f,
    (∀ st n, N n → parseRuleName R' f (swapStatus α π st) n = swapRule α π (parseRuleName R f st n)) ∧
    (∀ st e, (∀ m, Refs e m → N m) → (∀ a, HasAtom e a → Mirrors π a (α a)) → parseExpr R' f (swapStatus α π st) (swapExpr α e) = swapRun α π (parseExpr R f st e)) ∧
    (∀ st es acc, (∀ e ∈ es, (∀ m, Refs e m → N m) ∧ ∀ a, HasAtom e a → Mirrors π a (α a)) →
      parseAnd R' f (swapStatus α π st) (swapExprs α es) (swapNodes π acc) = swapRun α π (parseAnd R f st es acc)) ∧
    (∀ st es acc, (∀ e ∈ es, (∀ m, Refs e m → N m) ∧ ∀ a, HasAtom e a → Mirrors π a (α a)) →
      parseOr R' f (swapStatus α π st) (swapExprs α es) (acc.map (swapError α π)) = swapRun α π (parseOr R f st es acc)) ∧
    (∀ e mn mx st k acc, (∀ m, Refs e m → N m) → (∀ a, HasAtom e a → Mirrors π a (α a)) →
      parseRepeat R' f (swapExpr α e) mn mx (swapStatus α π st) k (swapNodes π acc) = swapRun α π (parseRepeat R f e mn mx st k acc)) := by
  intro f
  induction f with
  | zero =>
    refine ⟨?_, ?_, ?_, ?_, ?_⟩ <;> intros
    · rw [parseRuleName, parseRuleName]; rfl
    · rw [parseExpr, parseExpr]; rfl
    · rw [parseAnd, parseAnd]; rfl
    · rw [parseOr, parseOr]; rfl
    · rw [parseRepeat, parseRepeat]; rfl
  | succ f ih =>
    obtain ⟨ih1, ih2, ih3, ih4, ih5⟩ := ih
    refine ⟨?_, ?_, ?_, ?_, ?_⟩
    · intro st n hn
      rw [parseRuleName, parseRuleName, hR n hn, swap_push]
      generalize (if st.traceRules then st.pushRule (c!"r:" ++ n) else st) = st'
      cases hg : R.get n with
      | none => exact swap_raise_rule hπ st' (.missingRule n) .critical
      | some e =>
        simp only [Option.map_some]
        rw [ih2 st' e (hN n hn e hg).1 (hN n hn e hg).2]
        cases parseExpr R f st' e <;> rfl
    · intro st e he ha
      cases e with
      | simple a => rw [swapExpr, parseExpr, parseExpr]; exact swap_atomAsExpr hπ st a (ha a (.here a))
      | and es =>
        rw [swapExpr, parseExpr, parseExpr]
        exact ih3 st es [] (fun e h => ⟨fun m hm => he m (.and h hm), fun a hh => ha a (.and h hh)⟩)
      | or es =>
        rw [swapExpr, parseExpr, parseExpr]
        exact ih4 st es none (fun e h => ⟨fun m hm => he m (.or h hm), fun a hh => ha a (.or h hh)⟩)
      | not e =>
        rw [swapExpr, parseExpr, parseExpr, ih2 st e (fun m hm => he m (.not hm)) (fun a hh => ha a (.not hh))]
        rcases parseExpr R f st e with x | x | _ | _
        · exact swap_raise_run hπ st .not .normal
        all_goals rfl
      | rep e mn mx =>
        rw [swapExpr, parseExpr, parseExpr]
        exact ih5 e mn mx st 0 [] (fun m hm => he m (.rep hm)) (fun a hh => ha a (.rep hh))
      | ruleName n =>
        rw [swapExpr, parseExpr, parseExpr, ih1 st n (he n (.here n))]
        cases parseRuleName R f st n <;> rfl
    · intro st es acc he
      cases es with
      | nil => rw [swapExprs, parseAnd, parseAnd]; rfl
      | cons e es =>
        rw [swapExprs, parseAnd, parseAnd, ih2 st e (he e (by simp)).1 (he e (by simp)).2]
        rcases parseExpr R f st e with x | x | _ | _
        · simp only [swapRun]
          rw [← swapNodes_append]
          exact ih3 x.1 es (acc ++ x.2) (fun e h => he e (by simp [h]))
        all_goals rfl
    · intro st es acc he
      cases es with
      | nil =>
        rw [swapExprs]
        cases acc with
        | none => simp only [Option.map_none, parseOr]; exact swap_raise_run hπ st .orLogic .normal
        | some e => simp only [Option.map_some, parseOr]; rfl
      | cons e es =>
        rw [swapExprs, parseOr, parseOr, ih2 st e (he e (by simp)).1 (he e (by simp)).2]
        rcases parseExpr R f st e with x | x | _ | _
        · rfl
        · simp only [swapRun]
          show (if x.priority = .critical then _ else _) = _
          split
          · rfl
          · rw [swap_deepErr]
            exact ih4 st es (deepErr acc x) (fun e h => he e (by simp [h]))
        all_goals rfl
    · intro e mn mx st k acc he ha
      rw [parseRepeat, parseRepeat, ih2 st e he ha]
      rcases parseExpr R f st e with x | x | _ | _
      · simp only [swapRun]
        split
        · simp only [swapNodes_append]
        · rw [← swapNodes_append]
          exact ih5 e mn mx x.1 (k + 1) (acc ++ x.2) he ha
      · simp only [swapRun]
        split
        · show (if x.priority = .critical then _ else _) = _
          split <;> rfl
        · rfl
      all_goals rfl

end

end DP
