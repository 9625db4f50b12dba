/-
C11, C22, C23: rule sets as maps. C18: `parse_debug` agrees with `parse`.
-/
import Verif.Props.Combinators

namespace DP
open Spec

/-! ### C23 and C11 -/

/-- Rule sets that agree on a set of names closed under references give the same runs from these names. -/
theorem agree_fuel {R R' : SetOfRules} {S : Str → Prop} (hag : ∀ n, S n → R.get n = R'.get n)
    (hcl : ∀ n e m, S n → R.get n = some e → Refs e m → S m) : ∀ f,
    (∀ st n, S n → parseRuleName R f st n = parseRuleName R' f st n) ∧
    (∀ st e, (∀ m, Refs e m → S m) → parseExpr R f st e = parseExpr R' f st e) ∧
    (∀ st es acc, (∀ e ∈ es, ∀ m, Refs e m → S m) → parseAnd R f st es acc = parseAnd R' f st es acc) ∧
    (∀ st es acc, (∀ e ∈ es, ∀ m, Refs e m → S m) → parseOr R f st es acc = parseOr R' f st es acc) ∧
    (∀ e mn mx st k acc, (∀ m, Refs e m → S m) →
      parseRepeat R f e mn mx st k acc = parseRepeat R' f e mn mx st k acc) := by
  intro f
  induction f with
  | zero => simp [parseRuleName, parseExpr, parseAnd, parseOr, parseRepeat]
  | succ f ih =>
    obtain ⟨ih1, ih2, ih3, ih4, ih5⟩ := ih
    refine ⟨?_, ?_, ?_, ?_, ?_⟩
    · intro st n hn
      rw [parseRuleName, parseRuleName, ← hag n hn]
      cases hg : R.get n with
      | none => rfl
      | some e => simp only; rw [ih2 _ e (fun m hm => hcl n e m hn hg hm)]
    · intro st e he
      cases e with
      | simple a => rw [parseExpr, parseExpr]
      | and es => rw [parseExpr, parseExpr]; exact ih3 _ _ _ (fun e h m hm => he m (.and h hm))
      | or es => rw [parseExpr, parseExpr]; exact ih4 _ _ _ (fun e h m hm => he m (.or h hm))
      | not e => rw [parseExpr, parseExpr, ih2 _ _ (fun m hm => he m (.not hm))]
      | rep e mn mx => rw [parseExpr, parseExpr]; exact ih5 _ _ _ _ _ _ (fun m hm => he m (.rep hm))
      | ruleName n => rw [parseExpr, parseExpr, ih1 _ _ (he n (.here n))]
    · intro st es acc he
      cases es with
      | nil => rw [parseAnd, parseAnd]
      | cons e es =>
        rw [parseAnd, parseAnd, ih2 _ _ (he e (by simp))]
        cases parseExpr R' f st e with
        | ok x => exact ih3 _ _ _ (fun e h => he e (by simp [h]))
        | _ => rfl
    · intro st es acc he
      cases es with
      | nil => cases acc <;> rw [parseOr, parseOr]
      | cons e es =>
        rw [parseOr, parseOr, ih2 _ _ (he e (by simp))]
        cases parseExpr R' f st e with
        | err er => simp only; rw [ih4 _ _ _ (fun e h => he e (by simp [h]))]
        | _ => rfl
    · intro e mn mx st k acc he
      rw [parseRepeat, parseRepeat, ih2 _ _ he]
      cases parseExpr R' f st e with
      | ok x => simp only; rw [ih5 _ _ _ _ _ _ he]
      | _ => rfl

theorem agree_parse {R R' : SetOfRules} (h : ∀ n, Reach (grammar R) n → grammar R n = grammar R' n)
    (s : Str) : parse s R = parse s R' ∧ parseDebug s R = parseDebug s R' := by
  have := agree_fuel (R := R) (R' := R') (S := Reach (grammar R)) h
    (fun n e m hn hg hm => .step hn hg hm)
  have hr : ∀ f st, parseMain R f st = parseMain R' f st := fun f st => (this f).1 st _ .main
  constructor
  · unfold parse
    congr 1; funext f
    unfold parseWithDebugF
    simp only [hr]
  · unfold parseDebug
    congr 1; funext f
    unfold parseWithDebugF
    simp only [hr]

/-- **C23**: two rule sets which agree on the names reachable from `main` give the same result. -/
theorem C23_unreachable_rules_are_irrelevant {R R' : SetOfRules}
    (h : ∀ n, Reach (grammar R) n → grammar R' n = grammar R n) (s : Str) :
    parse s R' = parse s R ∧ parseDebug s R' = parseDebug s R := by
  obtain ⟨h1, h2⟩ := agree_parse (R := R) (R' := R') (fun n hn => (h n hn).symm) s
  exact ⟨h1.symm, h2.symm⟩

/-- **C11**: the outcome depends only on the mapping from names to expressions. -/
theorem C11_outcome_depends_on_mapping {R R' : SetOfRules} (h : ∀ n, grammar R n = grammar R' n)
    (s : Str) : parse s R = parse s R' ∧ parseDebug s R = parseDebug s R' :=
  agree_parse (fun n _ => h n) s

theorem lookup_cons' (x : Str × Expr) (l : List (Str × Expr)) (n : Str) :
    (x :: l).lookup n = if n = x.1 then some x.2 else l.lookup n := by
  obtain ⟨k, e⟩ := x
  rw [List.lookup_cons]
  by_cases h : n = k
  · simp [h]
  · rw [if_neg h, beq_false_of_ne h]

theorem lookup_perm {l l' : List (Str × Expr)} (hp : l.Perm l') (hd : (l.map Prod.fst).Nodup) (n : Str) :
    l.lookup n = l'.lookup n := by
  induction hp with
  | nil => rfl
  | cons x _ ih =>
    simp only [List.map_cons, List.nodup_cons] at hd
    rw [lookup_cons', lookup_cons', ih hd.2]
  | swap x y l =>
    simp only [List.map_cons, List.nodup_cons, List.mem_cons, not_or] at hd
    simp only [lookup_cons']
    by_cases hx : n = x.1 <;> by_cases hy : n = y.1
    · exact absurd (hy.symm.trans hx) hd.1.1
    · rw [if_neg hy, if_pos hx, if_pos hx]
    · rw [if_pos hy, if_neg hx, if_pos hy]
    · rw [if_neg hy, if_neg hx, if_neg hx, if_neg hy]
  | trans h1 _ ih1 ih2 =>
    rw [ih1 hd, ih2 ((h1.map Prod.fst).nodup_iff.mp hd)]

/-- **C11**: the order of the entries in the map does not matter. -/
theorem C11_order_of_entries_is_irrelevant {es es' : List (Str × Expr)} (hp : es.Perm es')
    (hd : (es.map Prod.fst).Nodup) (s : Str) :
    parse s ⟨es⟩ = parse s ⟨es'⟩ ∧ parseDebug s ⟨es⟩ = parseDebug s ⟨es'⟩ :=
  C11_outcome_depends_on_mapping (fun n => lookup_perm hp hd n) s

/-- **C11**: a parse that finishes has one result, however long it is allowed to run. -/
theorem C11_one_result {s : Str} {R : SetOfRules} {b : Bool} {f g : Nat}
    (hf : parseWithDebugF f s R b ≠ .diverge) (hg : parseWithDebugF g s R b ≠ .diverge) :
    parseWithDebugF f s R b = parseWithDebugF g s R b := by
  have hs := parseWithDebugF_step s R b
  have h1 := mono_of_step hs (Nat.le_max_left f g) rfl hf
  have h2 := mono_of_step hs (Nat.le_max_right f g) rfl hg
  rw [← h1, ← h2]

example : parse c!"ab Q" ⟨exRules.entries.reverse⟩ = .ok exTree := by
  rw [← (C11_order_of_entries_is_irrelevant (es := exRules.entries) (List.reverse_perm _).symm
    (by decide) _).1]
  exact exParse

/-! ### C22 -/

theorem lookup_filter_ne (l : List (Str × Expr)) (k n : Str) (h : n ≠ k) :
    (l.filter (fun x => x.1 != k)).lookup n = l.lookup n := by
  induction l with
  | nil => rfl
  | cons x l ih =>
    by_cases hx : x.1 = k
    · rw [List.filter_cons_of_neg (by simp [hx]), ih, lookup_cons', if_neg (by rw [hx]; exact h)]
    · rw [List.filter_cons_of_pos (by simp [hx]), lookup_cons', lookup_cons', ih]

theorem lookup_insertEntry (l : List (Str × Expr)) (kv : Str × Expr) (n : Str) :
    (SetOfRules.insertEntry l kv).lookup n = if n = kv.1 then some kv.2 else l.lookup n := by
  unfold SetOfRules.insertEntry
  rw [lookup_cons']
  by_cases h : n = kv.1
  · rw [if_pos h, if_pos h]
  · rw [if_neg h, if_neg h, lookup_filter_ne l kv.1 n h]

/-- **C22**: `add` sets exactly one name. -/
theorem C22_add (R : SetOfRules) (n : Str) (e : Expr) (m : Str) :
    grammar (R.add n e) m = if m = n then some e else grammar R m :=
  lookup_insertEntry R.entries (n, e) m

theorem lookup_foldl (l acc : List (Str × Expr)) (n : Str) :
    (l.foldl SetOfRules.insertEntry acc).lookup n =
      (l.reverse.lookup n).or (acc.lookup n) := by
  induction l generalizing acc with
  | nil => rfl
  | cons x l ih =>
    rw [List.foldl_cons, ih, lookup_insertEntry, List.reverse_cons, List.lookup_append]
    cases h : l.reverse.lookup n with
    | some e => rfl
    | none =>
      rw [Option.none_or, Option.none_or, lookup_cons', List.lookup_nil]
      by_cases hx : n = x.1
      · rw [if_pos hx, if_pos hx]; rfl
      · rw [if_neg hx, if_neg hx]; rfl

theorem lookup_nodup_reverse {l : List (Str × Expr)} (hd : (l.map Prod.fst).Nodup) (n : Str) :
    l.reverse.lookup n = l.lookup n :=
  (lookup_perm (List.reverse_perm l).symm hd n).symm

/-- Each name occurs once in the entries: the invariant of a hash map. -/
def UniqueKeys (R : SetOfRules) : Prop := (R.entries.map Prod.fst).Nodup

/-- **C22**: `merge` keeps the rules already present and takes the others from its argument. -/
theorem C22_merge {a b : SetOfRules} (ha : UniqueKeys a) (hb : UniqueKeys b) (n : Str) :
    grammar (a.merge b) n = (grammar a n).or (grammar b n) := by
  unfold grammar SetOfRules.merge
  simp only
  rw [lookup_foldl, List.reverse_append, List.lookup_append, lookup_nodup_reverse ha,
    lookup_nodup_reverse hb]
  simp

theorem insertEntry_nodup {l : List (Str × Expr)} (kv : Str × Expr) (h : (l.map Prod.fst).Nodup) :
    ((SetOfRules.insertEntry l kv).map Prod.fst).Nodup := by
  unfold SetOfRules.insertEntry
  rw [List.map_cons, List.nodup_cons]
  constructor
  · intro hm
    obtain ⟨x, hx, hk⟩ := List.mem_map.mp hm
    simp [List.mem_filter] at hx
    exact hx.2 hk
  · exact (List.filter_sublist.map Prod.fst).nodup h

theorem foldl_insert_nodup (l acc : List (Str × Expr)) (h : (acc.map Prod.fst).Nodup) :
    ((l.foldl SetOfRules.insertEntry acc).map Prod.fst).Nodup := by
  induction l generalizing acc with
  | nil => exact h
  | cons x l ih => exact ih _ (insertEntry_nodup x h)

/-- **C22**: all constructors of rule sets keep each name at most once. -/
theorem C22_keys_unique : UniqueKeys SetOfRules.empty ∧
    (∀ (R : SetOfRules) n e, UniqueKeys R → UniqueKeys (R.add n e)) ∧ (∀ a b : SetOfRules, UniqueKeys (a.merge b)) ∧
    ∀ l, UniqueKeys (SetOfRules.ofList l) := by
  refine ⟨List.nodup_nil, fun R n e h => insertEntry_nodup _ h,
    fun a b => foldl_insert_nodup _ [] List.nodup_nil, ?_⟩
  intro l
  unfold SetOfRules.ofList
  suffices ∀ R, UniqueKeys R → UniqueKeys (l.foldl (fun R kv => R.add kv.1 kv.2) R) from
    this _ List.nodup_nil
  induction l with
  | nil => exact fun R h => h
  | cons x l ih => exact fun R h => ih _ (insertEntry_nodup _ h)

/-- **C22**: `merge` is associative (as maps). -/
theorem C22_merge_assoc {a b c : SetOfRules} (ha : UniqueKeys a) (hb : UniqueKeys b) (hc : UniqueKeys c)
    (n : Str) : grammar ((a.merge b).merge c) n = grammar (a.merge (b.merge c)) n := by
  rw [C22_merge (C22_keys_unique.2.2.1 a b) hc, C22_merge ha hb,
    C22_merge ha (C22_keys_unique.2.2.1 b c), C22_merge hb hc, Option.or_assoc]

/-- **C22**: the empty set is the identity of `merge`. -/
theorem C22_merge_empty {a : SetOfRules} (ha : UniqueKeys a) (n : Str) :
    grammar (a.merge SetOfRules.empty) n = grammar a n ∧ grammar (SetOfRules.empty.merge a) n = grammar a n := by
  rw [C22_merge ha C22_keys_unique.1, C22_merge C22_keys_unique.1 ha]
  constructor
  · cases grammar a n <;> rfl
  · rfl

/-- **C22**: `rules!{...}` keeps the last definition of a repeated name. -/
theorem C22_last_definition_wins (l : List (Str × Expr)) (n : Str) :
    grammar (.ofList l) n = l.reverse.lookup n := by
  have : ∀ R : SetOfRules, grammar (l.foldl (fun R kv => R.add kv.1 kv.2) R) n =
      (l.reverse.lookup n).or (grammar R n) := by
    induction l with
    | nil => intro R; rfl
    | cons x l ih =>
      intro R
      rw [List.foldl_cons, ih, C22_add, List.reverse_cons, List.lookup_append]
      cases h : l.reverse.lookup n with
      | some e => rfl
      | none =>
        rw [Option.none_or, Option.none_or, lookup_cons', List.lookup_nil]
        by_cases hx : n = x.1
        · rw [if_pos hx, if_pos hx]; rfl
        · rw [if_neg hx, if_neg hx]; rfl
  unfold SetOfRules.ofList
  rw [this]
  cases l.reverse.lookup n <;> rfl

example : UniqueKeys exRules := by unfold UniqueKeys; decide

/-- **C23** for `add`: (re)defining a name that is not reachable from `main`. -/
theorem C23_add {R : SetOfRules} {n : Str} (h : ¬ Reach (grammar R) n) (e : Expr) (s : Str) :
    parse s (R.add n e) = parse s R := by
  refine (C23_unreachable_rules_are_irrelevant (R' := R.add n e) ?_ s).1
  intro m hm
  rw [C22_add, if_neg]
  rintro rfl
  exact h hm

/-- **C23** for `merge`: taking in further rules does not matter if every name reachable from `main` is
already defined. -/
theorem C23_merge {a b : SetOfRules} (ha : UniqueKeys a) (hb : UniqueKeys b)
    (h : ∀ n, Reach (grammar a) n → ∃ e, grammar a n = some e) (s : Str) :
    parse s (a.merge b) = parse s a := by
  refine (C23_unreachable_rules_are_irrelevant (R' := a.merge b) ?_ s).1
  intro m hm
  obtain ⟨e, he⟩ := h m hm
  rw [C22_merge ha hb, he]
  rfl

theorem reach_exRules {n} (h : Reach (grammar exRules) n) : n = c!"main" ∨ n = c!"word" ∨ n = c!"sp" := by
  induction h with
  | main => exact Or.inl rfl
  | @step n e m hn hg hr _ =>
    have hm := mem_of_get (R := exRules) hg
    simp only [exRules, List.mem_cons, List.not_mem_nil, or_false, Prod.mk.injEq] at hm
    rcases hm with ⟨rfl, rfl⟩ | ⟨rfl, rfl⟩ | ⟨rfl, rfl⟩
    · cases hr with
      | and h1 h2 =>
        simp only [List.mem_cons, List.not_mem_nil, or_false] at h1
        rcases h1 with rfl | rfl
        · cases h2 with | rep h => cases h; exact Or.inr (Or.inl rfl)
        · cases h2 with | not h => cases h
    · cases hr with
      | or h1 h2 =>
        simp only [List.mem_cons, List.not_mem_nil, or_false] at h1
        rcases h1 with rfl | rfl | rfl
        · cases h2
        · cases h2
        · cases h2; exact Or.inr (Or.inr rfl)
    · cases hr

example : ¬ Reach (grammar exRules) c!"other" := by
  intro h
  rcases reach_exRules h with h | h | h <;> simp at h

example : ∀ n, Reach (grammar exRules) n → ∃ e, grammar exRules n = some e := by
  intro n h
  rcases reach_exRules h with rfl | rfl | rfl <;> exact ⟨_, rfl⟩

/-! ### C18 -/

/-- An error without its rule trace. -/
def forgetTrace (e : Error) : Error := { e with parsingRules := [] }

/-- A status without trace. -/
def untraced (st : Status) : Status :=
  { st with traceRules := false, walkingRules := [], potentialError := st.potentialError.map forgetTrace }

/-- A result without trace. -/
def untracedOut {α : Type} : Out Error (Status × α) → Out Error (Status × α)
  | .ok x => .ok (untraced x.1, x.2)
  | .err e => .err (forgetTrace e)
  | .panic => .panic
  | .diverge => .diverge

theorem fromStatus_untraced (st d p) :
    fromStatus (untraced st) d p = (fromStatus st d p).map forgetTrace := by
  unfold fromStatus untraced
  simp only
  cases slice st.text2parse st.pos.startLine st.pos.n <;> rfl

theorem raise_untraced {α : Type} (st d p) :
    (raise (untraced st) d p : Out Error (Status × α)) = untracedOut (raise st d p) := by
  unfold raise
  rw [fromStatus_untraced]
  cases fromStatus st d p <;> rfl

theorem getChar_untraced (st) : getChar (untraced st) =
    match getChar st with
    | .ok (st', c) => .ok (untraced st', c)
    | .error st' => .error (untraced st') := by
  unfold getChar
  have : (untraced st).itParsing = st.itParsing := rfl
  rw [this]
  cases st.itParsing <;> rfl

theorem literalLoop_untraced (lit : Str) : ∀ l st, parseLiteralLoop lit (untraced st) l =
    match parseLiteralLoop lit st l with
    | .ok st' => .ok (untraced st')
    | .err e => .err (forgetTrace e)
    | .panic => .panic
    | .diverge => .diverge := by
  intro l
  induction l with
  | nil => intro st; rfl
  | cons c l ih =>
    intro st
    unfold parseLiteralLoop parseChar
    rw [getChar_untraced]
    have hr : ∀ st', (raise (untraced st') (.literal lit) .normal : Out Error Status) =
        match (raise st' (.literal lit) .normal : Out Error Status) with
        | .ok st' => .ok (untraced st')
        | .err e => .err (forgetTrace e)
        | .panic => .panic
        | .diverge => .diverge := by
      intro st'
      unfold raise
      rw [fromStatus_untraced]
      cases fromStatus st' (.literal lit) .normal <;> rfl
    cases getChar st with
    | ok x =>
      obtain ⟨st', got⟩ := x
      simp only
      by_cases h : c = got
      · simp only [if_pos h]; exact ih st'
      · simp only [if_neg h]; exact hr st'
    | error st' => exact hr st'

theorem atom_untraced (st a) : parseAtom (untraced st) a = untracedOut (parseAtom st a) := by
  cases a with
  | literal l =>
    show parseLiteral _ _ = untracedOut (parseLiteral _ _)
    unfold parseLiteral
    rw [literalLoop_untraced]
    cases parseLiteralLoop l st l <;> rfl
  | error s => exact raise_untraced st _ _
  | mtch cs rs =>
    show parseMatch _ _ _ = untracedOut (parseMatch _ _ _)
    unfold parseMatch
    rw [getChar_untraced]
    cases getChar st with
    | ok x =>
      simp only
      split
      · rfl
      · exact raise_untraced _ _ _
    | error st' => exact raise_untraced _ _ _
  | dot =>
    show parseDot _ = untracedOut (parseDot _)
    unfold parseDot
    rw [getChar_untraced]
    cases getChar st with
    | ok x => rfl
    | error st' => exact raise_untraced _ _ _
  | eof =>
    show parseEof _ = untracedOut (parseEof _)
    unfold parseEof
    rw [getChar_untraced]
    cases getChar st with
    | ok x => exact raise_untraced _ _ _
    | error st' => rfl

theorem deepErr_untraced (acc e) : deepErr (acc.map forgetTrace) (forgetTrace e) =
    (deepErr acc e).map forgetTrace := by
  cases acc with
  | none => rfl
  | some a =>
    unfold deepErr
    simp only [Option.map_some]
    show (match a.priority.gt e.priority, decide (a.pos.n > e.pos.n) with
      | true, _ => some (forgetTrace a)
      | false, true => some (forgetTrace a)
      | false, false => some (forgetTrace e)) = _
    cases a.priority.gt e.priority <;> cases decide (a.pos.n > e.pos.n) <;> rfl

theorem untraced_fuel (R : SetOfRules) : ∀ f,
    (∀ st n, parseRuleName R f (untraced st) n = untracedOut (parseRuleName R f st n)) ∧
    (∀ st e, parseExpr R f (untraced st) e = untracedOut (parseExpr R f st e)) ∧
    (∀ st es acc, parseAnd R f (untraced st) es acc = untracedOut (parseAnd R f st es acc)) ∧
    (∀ st es acc, parseOr R f (untraced st) es (acc.map forgetTrace) =
      untracedOut (parseOr R f st es acc)) ∧
    (∀ e mn mx st k acc, parseRepeat R f e mn mx (untraced st) k acc =
      untracedOut (parseRepeat R f e mn mx st k acc)) := by
  intro f
  induction f with
  | zero => simp [parseRuleName, parseExpr, parseAnd, parseOr, parseRepeat, untracedOut]
  | succ f ih =>
    obtain ⟨ih1, ih2, ih3, ih4, ih5⟩ := ih
    refine ⟨?_, ?_, ?_, ?_, ?_⟩
    · intro st n
      rw [parseRuleName, parseRuleName]
      have h0 : (untraced st).traceRules = false := rfl
      have h1 : untraced st =
          untraced (if st.traceRules = true then st.pushRule (c!"r:" ++ n) else st) := by
        split <;> rfl
      simp only [h0, Bool.false_eq_true, if_false]
      rw [h1]
      generalize (if st.traceRules = true then st.pushRule (c!"r:" ++ n) else st) = st1
      cases hg : R.get n with
      | none => exact raise_untraced _ _ _
      | some e =>
        simp only
        rw [ih2]
        cases parseExpr R f st1 e <;> rfl
    · intro st e
      cases e with
      | simple a =>
        rw [parseExpr, parseExpr]
        unfold parseAtomAsExpr
        rw [atom_untraced]
        cases parseAtom st a <;> rfl
      | and es => rw [parseExpr, parseExpr]; exact ih3 _ _ _
      | or es => rw [parseExpr, parseExpr]; exact ih4 _ _ none
      | not e =>
        rw [parseExpr, parseExpr, ih2]
        cases parseExpr R f st e with
        | ok x => exact raise_untraced _ _ _
        | _ => rfl
      | rep e mn mx => rw [parseExpr, parseExpr]; exact ih5 _ _ _ _ _ _
      | ruleName n =>
        rw [parseExpr, parseExpr, ih1]
        cases parseRuleName R f st n <;> rfl
    · intro st es acc
      cases es with
      | nil => rw [parseAnd, parseAnd]; rfl
      | cons e es =>
        rw [parseAnd, parseAnd, ih2]
        cases parseExpr R f st e with
        | ok x => exact ih3 _ _ _
        | _ => rfl
    · intro st es acc
      cases es with
      | nil =>
        cases acc with
        | none => rw [Option.map_none, parseOr, parseOr]; exact raise_untraced _ _ _
        | some a => rw [Option.map_some, parseOr, parseOr]; rfl
      | cons e es =>
        rw [parseOr, parseOr, ih2]
        cases parseExpr R f st e with
        | err er =>
          simp only [untracedOut]
          have : (forgetTrace er).priority = er.priority := rfl
          rw [this]
          split
          · rfl
          · rw [deepErr_untraced]; exact ih4 _ _ _
        | _ => rfl
    · intro e mn mx st k acc
      rw [parseRepeat, parseRepeat, ih2]
      cases parseExpr R f st e with
      | ok x =>
        simp only [untracedOut]
        split
        · rfl
        · exact ih5 _ _ _ _ _ _
      | err er =>
        simp only [untracedOut]
        have : (forgetTrace er).priority = er.priority := rfl
        rw [this]
        split
        · split <;> rfl
        · rfl
      | _ => rfl

/-- The outcome of a parse, with the rule trace of an error removed. -/
def withoutTrace : Out Error Node → Out Error Node
  | .err e => .err (forgetTrace e)
  | x => x

/-- **C18**: `parse` is `parse_debug` with the rule trace of the error, if any, removed. In particular one
returns Ok(t), panics or diverges iff the other does. -/
theorem C18_parse_debug_agrees (s : Str) (R : SetOfRules) : parse s R = withoutTrace (parseDebug s R) := by
  have hm : ∀ f, parseMain R f (Status.init s) = untracedOut (parseMain R f (Status.initDebug s true)) :=
    fun f => (untraced_fuel R f).1 (Status.initDebug s true) c!"main"
  have hf : ∀ f, parseWithDebugF f s R false = withoutTrace (parseWithDebugF f s R true) := by
    intro f
    unfold parseWithDebugF
    simp only [Bool.false_eq_true, if_false, if_true]
    rw [hm]
    cases parseMain R f (Status.initDebug s true) with
    | ok x =>
      obtain ⟨st, t⟩ := x
      simp only [untracedOut]
      have : (untraced st).pos = st.pos := rfl
      rw [this]
      split
      · rfl
      · have : (untraced st).potentialError = st.potentialError.map forgetTrace := rfl
        rw [this]
        cases st.potentialError with
        | some e => rfl
        | none =>
          simp only [Option.map_none]
          unfold raise
          rw [fromStatus_untraced]
          cases fromStatus st .notConsumed .normal <;> rfl
    | _ => rfl
  unfold parse
  simp only [hf]
  unfold parseDebug
  rcases limit_elim (fun f => parseWithDebugF f s R true) with ⟨h1, h2⟩ | ⟨n, h1, h2⟩
  · rw [h1]
    show _ = Out.diverge
    rw [limit_diverge_iff]
    intro n; rw [h2]; rfl
  · refine limit_of (n := n) (F := fun f => withoutTrace (parseWithDebugF f s R true)) ?_ ?_ ?_
    · intro f
      rcases parseWithDebugF_step s R true f with h | h
      · left; rw [h]; rfl
      · right; rw [h]
    · simp only [h1]
    · generalize limit (fun f => parseWithDebugF f s R true) = L at *
      cases L <;> simp_all [withoutTrace]

/-- **C18**, successful case. -/
theorem C18_ok_iff {s : Str} {R : SetOfRules} {t : Node} : parseDebug s R = .ok t ↔ parse s R = .ok t := by
  rw [C18_parse_debug_agrees]
  cases parseDebug s R <;> simp [withoutTrace]

/-- **C18**, error case: same position, description, lines and priority. -/
theorem C18_err_iff {s : Str} {R : SetOfRules} {e : Error} : parse s R = .err e ↔
    ∃ tr, parseDebug s R = .err { e with parsingRules := tr } ∧ e.parsingRules = [] := by
  rw [C18_parse_debug_agrees]
  cases hx : parseDebug s R with
  | err e' =>
    simp only [withoutTrace, Out.err.injEq]
    constructor
    · rintro rfl; exact ⟨e'.parsingRules, rfl, rfl⟩
    · rintro ⟨tr, h1, h2⟩
      rw [h1]
      unfold forgetTrace
      cases e
      simp_all
  | _ => simp [withoutTrace]

example : parseDebug c!"ab Q" exRules = .ok exTree := C18_ok_iff.2 exParse

end DP
