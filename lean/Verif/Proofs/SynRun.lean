/-
The consumers on the flat nodes of atoms, items, sequences and alternatives.
-/
import Verif.Proofs.SynStart

namespace DP
open Spec PegRules Spec.Syntax Peg

theorem flatRule_begin {n : Str} (ns : List Node) (hb : n ∉ blanks) (tail : List FNode) :
    ∃ rest, flatRule n ns ++ tail = .beginRule n :: rest := by
  unfold flatRule
  rw [if_neg hb]
  exact ⟨_, rfl⟩

theorem flatList_one (n : Str) (ns : List Node) : flatList [.rule n ns] = flatRule n ns := by
  rw [flatList_rule, flatList_nil, List.append_nil]

theorem Gives.map {α β : Type} {o : Option α} {x : Option Complaint} {g : α → β} {tail ctx} {r : Res α} (h : Gives o x tail ctx r) :
    Gives (o.map g) x tail ctx (r >>= fun x => .ok (g x.1, x.2.1, x.2.2)) := by
  refine Gives.bind h ?_ (by rintro p rfl rfl; exact ⟨rfl, rfl⟩)
  rintro v rfl rfl
  rfl

theorem Runs.as {α : Type} {run : Nat → List FNode → Context → Res α} {fs o} {x y : Option Complaint} (h : Runs run fs o x) (e : y = x) :
    Runs run fs o y := e ▸ h

/-! ### Atoms -/

theorem run_literal {ns o x} (h : Runs consumeLiteralString (flatRule c!"literal" ns) o x) :
    Runs consumeAtom (flatRule c!"atom" [.rule c!"literal" ns]) (o.map fun v => .simple (.literal v))
      (within [c!"consuming atom"] (within [c!"n:literal"] x)) := by
  obtain ⟨F, hF⟩ := h
  refine ⟨F + 1, fun f hf tail ctx => ?_⟩
  obtain ⟨f, rfl⟩ : ∃ g, f = g + 1 := ⟨f - 1, by omega⟩
  rw [consumeAtom]
  refine Gives.consuming (by decide) ?_
  have ih := hF f (by omega) (.endRule c!"atom" :: tail) ctx
  rw [flatList_one]
  obtain ⟨rest, e⟩ := flatRule_begin (n := c!"literal") ns (by decide) (.endRule c!"atom" :: tail)
  rw [e] at ih ⊢
  exact (Gives.map ih).push

theorem run_ref {ns n} (h : Runs consumeRuleName (flatRule c!"rule_name" ns) (some n) none) :
    Runs consumeAtom (flatRule c!"atom" [.rule c!"rule_name" ns]) (some (.ruleName n)) none := by
  obtain ⟨F, hF⟩ := h
  refine ⟨F + 1, fun f hf tail ctx => ?_⟩
  obtain ⟨f, rfl⟩ : ∃ g, f = g + 1 := ⟨f - 1, by omega⟩
  rw [consumeAtom]
  refine Gives.consuming (x := none) (by decide) ?_
  have ih := hF f (by omega) (.endRule c!"atom" :: tail) ctx
  rw [flatList_one]
  obtain ⟨rest, e⟩ := flatRule_begin (n := c!"rule_name") ns (by decide) (.endRule c!"atom" :: tail)
  rw [e] at ih ⊢
  exact (Gives.map (g := Expr.ruleName) ih).push.push

theorem run_match {ns x} (h : Runs consumeMatch (flatRule c!"match" ns) (some x) none) :
    Runs consumeAtom (flatRule c!"atom" [.rule c!"match" ns]) (some x) none := by
  obtain ⟨F, hF⟩ := h
  refine ⟨F + 1, fun f hf tail ctx => ?_⟩
  obtain ⟨f, rfl⟩ : ∃ g, f = g + 1 := ⟨f - 1, by omega⟩
  rw [consumeAtom]
  refine Gives.consuming (x := none) (by decide) ?_
  have ih := hF f (by omega) (.endRule c!"atom" :: tail) ctx
  rw [flatList_one]
  obtain ⟨rest, e⟩ := flatRule_begin (n := c!"match") ns (by decide) (.endRule c!"atom" :: tail)
  rw [e] at ih ⊢
  exact ih.push

theorem run_dot : Runs consumeAtom (flatRule c!"atom" [.rule c!"dot" [.val c!"."]]) (some (.simple .dot)) none := by
  refine ⟨1, fun f hf tail ctx => ?_⟩
  obtain ⟨f, rfl⟩ : ∃ g, f = g + 1 := ⟨f - 1, by omega⟩
  rw [consumeAtom]
  refine Gives.consuming (x := none) (by decide) ?_
  rw [flatList_one, flatRule, if_neg (by decide), flatList_val (by simp), flatList_nil]
  rfl

theorem run_atom {ns o x} (h : Runs consumeAtom (flatRule c!"atom" ns) o x) :
    Runs consumeAtomOrPar (flatRule c!"atom_or_par" [.rule c!"atom" ns]) o
      (within [c!"consuming atom_or_par"] (within [c!"n:atom"] x)) := by
  obtain ⟨F, hF⟩ := h
  refine ⟨F + 1, fun f hf tail ctx => ?_⟩
  obtain ⟨f, rfl⟩ : ∃ g, f = g + 1 := ⟨f - 1, by omega⟩
  rw [consumeAtomOrPar]
  refine Gives.consuming (by decide) ?_
  have ih := hF f (by omega) (.endRule c!"atom_or_par" :: tail) ctx
  rw [flatList_one]
  obtain ⟨rest, e⟩ := flatRule_begin (n := c!"atom") ns (by decide) (.endRule c!"atom_or_par" :: tail)
  rw [e] at ih ⊢
  exact ih.push

theorem run_parenth {ns o x} (h : Runs consumeParenth (flatRule c!"parenth" ns) o x) :
    Runs consumeAtomOrPar (flatRule c!"atom_or_par" [.rule c!"parenth" ns]) o
      (within [c!"consuming atom_or_par"] (within [c!"n:parenth"] x)) := by
  obtain ⟨F, hF⟩ := h
  refine ⟨F + 1, fun f hf tail ctx => ?_⟩
  obtain ⟨f, rfl⟩ : ∃ g, f = g + 1 := ⟨f - 1, by omega⟩
  rw [consumeAtomOrPar]
  refine Gives.consuming (by decide) ?_
  have ih := hF f (by omega) (.endRule c!"atom_or_par" :: tail) ctx
  rw [flatList_one]
  obtain ⟨rest, e⟩ := flatRule_begin (n := c!"parenth") ns (by decide) (.endRule c!"atom_or_par" :: tail)
  rw [e] at ih ⊢
  exact ih.push

/-! ### Items -/

theorem run_plain {ns o x} (h : Runs consumeAtomOrPar (flatRule c!"atom_or_par" ns) o x) :
    Runs consumeRepOrNeg (flatRule c!"rep_or_neg" [.rule c!"atom_or_par" ns]) o (within [c!"consuming rep_or_neg"] x) := by
  obtain ⟨F, hF⟩ := h
  refine ⟨F + 1, fun f hf tail ctx => ?_⟩
  obtain ⟨f, rfl⟩ : ∃ g, f = g + 1 := ⟨f - 1, by omega⟩
  rw [consumeRepOrNeg]
  refine Gives.consuming (by decide) ?_
  have ih := hF f (by omega) (.endRule c!"rep_or_neg" :: tail) ctx
  rw [flatList_one]
  obtain ⟨rest, e⟩ := flatRule_begin (n := c!"atom_or_par") ns (by decide) (.endRule c!"rep_or_neg" :: tail)
  rw [e] at ih ⊢
  refine Gives.bind ih ?_ (fun p h h' => ⟨h, h'⟩)
  rintro v rfl rfl
  rfl

theorem run_suffix {ns o y} {x : Str} {g : Expr → Expr} (hx : ∀ e, processRepetitionIndicator e x = .ok (g e))
    (h : Runs consumeAtomOrPar (flatRule c!"atom_or_par" ns) o y) :
    Runs consumeRepOrNeg (flatRule c!"rep_or_neg" [.rule c!"atom_or_par" ns, .val x]) (o.map g) (within [c!"consuming rep_or_neg"] y) := by
  obtain ⟨F, hF⟩ := h
  refine ⟨F + 1, fun f hf tail ctx => ?_⟩
  obtain ⟨f, rfl⟩ : ∃ g, f = g + 1 := ⟨f - 1, by omega⟩
  rw [consumeRepOrNeg]
  refine Gives.consuming (by decide) ?_
  have ih := hF f (by omega) (.val x :: .endRule c!"rep_or_neg" :: tail) ctx
  have e0 : flatList [.rule c!"atom_or_par" ns, .val x] ++ .endRule c!"rep_or_neg" :: tail =
      flatRule c!"atom_or_par" ns ++ .val x :: .endRule c!"rep_or_neg" :: tail := by
    rw [flatList_rule, flatList_val (by simp), flatList_nil]
    simp
  rw [e0]
  obtain ⟨rest, e⟩ := flatRule_begin (n := c!"atom_or_par") ns (by decide) (.val x :: .endRule c!"rep_or_neg" :: tail)
  rw [e] at ih ⊢
  refine Gives.bind ih ?_ (by rintro p rfl rfl; exact ⟨rfl, rfl⟩)
  rintro v rfl rfl
  show (processRepetitionIndicator v x >>= _) = _
  rw [hx]
  rfl

theorem run_not {ns o x} (h : Runs consumeAtomOrPar (flatRule c!"atom_or_par" ns) o x) :
    Runs consumeRepOrNeg (flatRule c!"rep_or_neg" [.val c!"!", .rule c!"atom_or_par" ns]) (o.map .not) (within [c!"consuming rep_or_neg"] x) := by
  obtain ⟨F, hF⟩ := h
  refine ⟨F + 1, fun f hf tail ctx => ?_⟩
  obtain ⟨f, rfl⟩ : ∃ g, f = g + 1 := ⟨f - 1, by omega⟩
  rw [consumeRepOrNeg]
  refine Gives.consuming (by decide) ?_
  have ih := hF f (by omega) (.endRule c!"rep_or_neg" :: tail) ctx
  rw [flatList_val_rule, flatList_nil, List.append_nil]
  exact Gives.map (g := Expr.not) ih

/-! ### Sequences -/

/-- pushing several expressions -/
def pushAll (v : EOV) (es : List Expr) : EOV := es.foldl EOV.ipush v

theorem pushAll_vexpr (es l) : pushAll (.vexpr l) es = .vexpr (l ++ es) := by
  induction es generalizing l with
  | nil => simp [pushAll]
  | cons e es ih =>
    show pushAll (.vexpr (l ++ [e])) es = _
    rw [ih]
    simp

theorem pushAll_none {e1 e2 : Expr} (es) : pushAll .none (e1 :: e2 :: es) = .vexpr (e1 :: e2 :: es) := by
  show pushAll (.vexpr [e1, e2]) es = _
  rw [pushAll_vexpr]
  rfl

/-- with enough fuel, pushing onto what was collected -/
def Collects (run : Nat → EOV → List FNode → Context → Res EOV) (fs : List FNode) (o : Option (List Expr)) (x : Option Complaint) : Prop :=
  ∃ F, ∀ f, F ≤ f → ∀ v tail ctx, Gives (o.map (pushAll v)) x tail ctx (run f v (fs ++ tail) ctx)

theorem run_error {ns o x} (h : Runs consumeLiteralString (flatRule c!"literal" ns) o x) (n1 n2 n3) :
    Runs consumeError (flatRule c!"error" [.val c!"error", .rule c!"_" n1, .val c!"(", .rule c!"_" n2, .rule c!"literal" ns,
      .rule c!"_" n3, .val c!")"]) (o.map fun v => .simple (.error v)) (within [c!"consuming error"] x) := by
  obtain ⟨F, hF⟩ := h
  refine ⟨F + 1, fun f hf tail ctx => ?_⟩
  have ih := hF f (by omega) (.val c!")" :: .endRule c!"error" :: tail) ctx
  refine Gives.map (o := o) ?_
  refine Gives.consuming (by decide) ?_
  have e : ∀ n, flatRule c!"_" n = [] := fun n => by rw [flatRule, if_pos (by decide)]
  have e0 : flatList [.val c!"error", .rule c!"_" n1, .val c!"(", .rule c!"_" n2, .rule c!"literal" ns, .rule c!"_" n3, .val c!")"] ++
      .endRule c!"error" :: tail =
      .val c!"error" :: .val c!"(" :: (flatRule c!"literal" ns ++ .val c!")" :: .endRule c!"error" :: tail) := by
    rw [flatList_val_rule, e, flatList_val_rule, e, flatList_rule, flatList_rule, e, flatList_val (by simp), flatList_nil]
    simp
  rw [e0]
  refine Gives.bind ih ?_ (fun p h h' => ⟨h, h'⟩)
  rintro v rfl rfl
  rfl

/-- the children of an `and` node with an error -/
theorem run_andError {ns o x} (h : Runs consumeError (flatRule c!"error" ns) o x) :
    Collects recConsumeAnd (flatRule c!"and" [.rule c!"error" ns]) (o.map fun e => [e]) (within [c!"consuming and"] x) := by
  obtain ⟨F, hF⟩ := h
  refine ⟨F + 1, fun f hf v tail ctx => ?_⟩
  obtain ⟨f, rfl⟩ : ∃ g, f = g + 1 := ⟨f - 1, by omega⟩
  rw [recConsumeAnd]
  refine Gives.consuming (by decide) ?_
  have ih := hF f (by omega) (.endRule c!"and" :: tail) ctx
  rw [flatList_one]
  obtain ⟨rest, e⟩ := flatRule_begin (n := c!"error") ns (by decide) (.endRule c!"and" :: tail)
  rw [e] at ih ⊢
  have := Gives.map (g := EOV.ipush v) ih
  rw [Option.map_map]
  exact this

/-- what follows the first item in an `and` node, and the end of the node -/
def restAnd (f : Nat) (v : EOV) (nodes : List FNode) (ctx : Context) : Res EOV := do
  let nextNode ← liftA (Flat.peekFirstNode nodes)
  let (v, nodes, ctx) ← (match nextNode with
    | .beginRule n => if n == c!"and" then recConsumeAnd f v nodes ctx else .ok (v, nodes, ctx)
    | _ => .ok (v, nodes, ctx) : Res EOV)
  let nodes ← liftA (Flat.consumeNodeEndRuleName c!"and" nodes)
  .ok (v, nodes, ctx)

/-- the elements after the first one -/
def RestRuns (fs : List FNode) (o : Option (List Expr)) (x : Option Complaint) : Prop :=
  ∃ F, ∀ f, F ≤ f → ∀ v tail ctx, Gives (o.map (pushAll v)) x tail ctx (restAnd f v (fs ++ .endRule c!"and" :: tail) ctx)

theorem rest_nil : RestRuns [] (some []) none := ⟨0, fun _ _ _ _ _ => rfl⟩

theorem run_and {ni nt oi ot xi xt} (h1 : Runs consumeRepOrNeg (flatRule c!"rep_or_neg" ni) oi xi) (h2 : RestRuns (flatList nt) ot xt) :
    Collects recConsumeAnd (flatRule c!"and" (.rule c!"rep_or_neg" ni :: nt)) (oi.bind fun e => ot.map (e :: ·))
      (within [c!"consuming and"] (first xi xt)) := by
  obtain ⟨F1, hF1⟩ := h1
  obtain ⟨F2, hF2⟩ := h2
  refine ⟨max F1 F2 + 1, fun f hf v tail ctx => ?_⟩
  obtain ⟨f, rfl⟩ : ∃ g, f = g + 1 := ⟨f - 1, by omega⟩
  have i1 := hF1 f (by omega) (flatList nt ++ .endRule c!"and" :: tail) ctx
  have e0 : flatRule c!"and" (.rule c!"rep_or_neg" ni :: nt) ++ tail =
      .beginRule c!"and" :: (flatRule c!"rep_or_neg" ni ++ (flatList nt ++ .endRule c!"and" :: tail)) := by
    rw [flatRule, if_neg (by decide), flatList_rule]
    simp
  rw [recConsumeAnd, e0, consumingRule, start_ok]
  refine Gives.push ?_
  obtain ⟨rest, e⟩ := flatRule_begin (n := c!"rep_or_neg") ni (by decide) (flatList nt ++ .endRule c!"and" :: tail)
  rw [e] at i1 ⊢
  rcases i1.cases with ⟨x, rfl, rfl, i1⟩ | ⟨p, rfl, rfl, i1⟩
  · have i2 := hF2 f (by omega) (v.ipush x) tail ctx
    have e2 : ((some x : Option Expr).bind fun e => ot.map (e :: ·)).map (pushAll v) = ot.map (pushAll (v.ipush x)) := by
      cases ot <;> rfl
    rw [e2]
    show Gives _ xt _ _ ((consumeRepOrNeg f (.beginRule c!"rep_or_neg" :: rest) ctx >>= _) >>= _)
    rw [i1]
    unfold restAnd at i2
    generalize flatList nt ++ .endRule c!"and" :: tail = m at i2 ⊢
    cases m with
    | nil => exact i2
    | cons y m =>
      cases y with
      | beginRule nm =>
        by_cases hn : nm = c!"and"
        · subst hn; exact i2
        · have hn' : (nm == c!"and") = false := by simpa using hn
          simp only [liftA, Flat.peekFirstNode, bind, Out.bind, hn'] at i2 ⊢
          exact i2
      | _ => exact i2
  · show ((consumeRepOrNeg f (.beginRule c!"rep_or_neg" :: rest) ctx >>= _) >>= _) = _
    rw [i1]
    rfl

/-- the children of the first `and` node after an item go on -/
theorem rest_and {na o x} (h : Collects recConsumeAnd (flatRule c!"and" na) o x) : RestRuns (flatRule c!"and" na) o x := by
  obtain ⟨F, hF⟩ := h
  refine ⟨F, fun f hf v tail ctx => ?_⟩
  have ih := hF f hf v (.endRule c!"and" :: tail) ctx
  unfold restAnd
  obtain ⟨rest, e⟩ := flatRule_begin (n := c!"and") na (by decide) (.endRule c!"and" :: tail)
  rw [e] at ih ⊢
  refine Gives.bind ih ?_ (fun p h h' => ⟨h, h'⟩)
  intro w hw hx
  rw [hw, hx]
  rfl

/-- an `and` node followed by another one is an error -/
theorem rest_more {na nb o x} {more : List FNode} (h : Collects recConsumeAnd (flatRule c!"and" na) o x) :
    RestRuns (flatRule c!"and" na ++ (flatRule c!"and" nb ++ more)) none (first x (some ⟨[], c!"expected end rule for and"⟩)) := by
  obtain ⟨F, hF⟩ := h
  refine ⟨F, fun f hf v tail ctx => ?_⟩
  have ih := hF f hf v (flatRule c!"and" nb ++ more ++ .endRule c!"and" :: tail) ctx
  have e0 : flatRule c!"and" na ++ (flatRule c!"and" nb ++ more) ++ .endRule c!"and" :: tail =
    flatRule c!"and" na ++ (flatRule c!"and" nb ++ more ++ .endRule c!"and" :: tail) := by simp
  unfold restAnd
  rw [e0]
  obtain ⟨rest, e⟩ := flatRule_begin (n := c!"and") na (by decide) (flatRule c!"and" nb ++ more ++ .endRule c!"and" :: tail)
  rw [e] at ih ⊢
  refine Gives.bind ih ?_ (by rintro p h rfl; exact ⟨rfl, rfl⟩)
  rintro w hw rfl
  obtain ⟨rest2, e2⟩ := flatRule_begin (n := c!"and") nb (by decide) (more ++ .endRule c!"and" :: tail)
  rw [List.append_assoc, e2]
  rfl

theorem Option.map_some_iff' {α β : Type} {o : Option α} {g : α → β} {v} (h : o.map g = some v) : ∃ a, o = some a ∧ g a = v := by
  cases o with
  | none => cases h
  | some a => exact ⟨a, rfl, by simpa using h⟩

theorem run_consumeAnd {na o x} (h : Collects recConsumeAnd (flatRule c!"and" na) o x) (hne : o ≠ some []) :
    Runs consumeAnd (flatRule c!"and" na) (o.map seqOf) x := by
  obtain ⟨F, hF⟩ := h
  refine ⟨F + 1, fun f hf tail ctx => ?_⟩
  obtain ⟨f, rfl⟩ : ∃ g, f = g + 1 := ⟨f - 1, by omega⟩
  have ih := hF f (by omega) .none tail ctx
  rw [consumeAnd]
  refine Gives.bind ih ?_ (fun p h h' => ⟨by cases o <;> simp_all, h'⟩)
  rintro w hw rfl
  obtain ⟨es, rfl, rfl⟩ := Option.map_some_iff' hw
  match es, hne with
  | [], hne => exact absurd rfl hne
  | [e], _ => rfl
  | e1 :: e2 :: es, _ =>
    rw [pushAll_none]
    rfl

/-! ### Alternatives -/

theorem run_or_one {na o x} (h : Runs consumeAnd (flatRule c!"and" na) o x) :
    Collects recConsumeOr (flatRule c!"or" [.rule c!"and" na]) (o.map fun e => [e]) (within [c!"consuming or"] x) := by
  obtain ⟨F, hF⟩ := h
  refine ⟨F + 1, fun f hf v tail ctx => ?_⟩
  obtain ⟨f, rfl⟩ : ∃ g, f = g + 1 := ⟨f - 1, by omega⟩
  rw [recConsumeOr]
  refine Gives.consuming (by decide) ?_
  have ih := hF f (by omega) (.endRule c!"or" :: tail) ctx
  rw [flatList_one]
  refine Gives.bind ih ?_ (fun p h h' => ⟨by cases o <;> simp_all, h'⟩)
  rintro w rfl rfl
  rfl

theorem run_or_cons {na nb n1 n2 o oa x xa} (h : Runs consumeAnd (flatRule c!"and" na) o x)
    (h2 : Collects recConsumeOr (flatRule c!"or" nb) oa xa) :
    Collects recConsumeOr (flatRule c!"or" [.rule c!"and" na, .rule c!"_" n1, .val c!"/", .rule c!"_" n2, .rule c!"or" nb])
      (o.bind fun e => oa.map (e :: ·)) (within [c!"consuming or"] (first x xa)) := by
  obtain ⟨F1, hF1⟩ := h
  obtain ⟨F2, hF2⟩ := h2
  refine ⟨max F1 F2 + 1, fun f hf v tail ctx => ?_⟩
  obtain ⟨f, rfl⟩ : ∃ g, f = g + 1 := ⟨f - 1, by omega⟩
  rw [recConsumeOr]
  refine Gives.consuming (by decide) ?_
  have e : ∀ n, flatRule c!"_" n = [] := fun n => by rw [flatRule, if_pos (by decide)]
  have e0 : flatList [.rule c!"and" na, .rule c!"_" n1, .val c!"/", .rule c!"_" n2, .rule c!"or" nb] ++ .endRule c!"or" :: tail =
      flatRule c!"and" na ++ .val c!"/" :: (flatRule c!"or" nb ++ .endRule c!"or" :: tail) := by
    rw [flatList_rule, flatList_rule, flatList_val_rule, flatList_rule, flatList_nil, e, e]
    simp
  rw [e0]
  refine Gives.bind (hF1 f (by omega) (.val c!"/" :: (flatRule c!"or" nb ++ .endRule c!"or" :: tail)) ctx) ?_ (by rintro p rfl rfl; exact ⟨rfl, rfl⟩)
  rintro x rfl rfl
  have i2 := hF2 f (by omega) (v.ipush x) (.endRule c!"or" :: tail) ctx
  have e2 : ((some x : Option Expr).bind fun e => oa.map (e :: ·)).map (pushAll v) = oa.map (pushAll (v.ipush x)) := by
    cases oa <;> rfl
  rw [e2]
  exact i2

theorem run_expr {nb oa x} (h : Collects recConsumeOr (flatRule c!"or" nb) oa x) (hne : oa ≠ some []) :
    Runs consumePegExpr (flatRule c!"expr" [.rule c!"or" nb]) (oa.map altOf) (within [c!"consuming expr"] (within [c!"or:"] x)) := by
  obtain ⟨F, hF⟩ := h
  refine ⟨F + 2, fun f hf tail ctx => ?_⟩
  obtain ⟨f, rfl⟩ : ∃ g, f = g + 2 := ⟨f - 2, by omega⟩
  have ih := hF f (by omega) .none (.endRule c!"expr" :: tail) ctx
  rw [consumePegExpr]
  refine Gives.consuming (by decide) ?_
  rw [flatList_one]
  show Gives _ _ _ _ (consumeOr (f + 1) (flatRule c!"or" nb ++ .endRule c!"expr" :: tail) ctx)
  rw [consumeOr]
  refine Gives.push ?_
  refine Gives.bind ih ?_ (fun p h h' => ⟨by cases oa <;> simp_all, h'⟩)
  rintro w hw rfl
  obtain ⟨es, rfl, rfl⟩ := Option.map_some_iff' hw
  match es, hne with
  | [], hne => exact absurd rfl hne
  | [e], _ => rfl
  | e1 :: e2 :: es, _ =>
    rw [pushAll_none]
    rfl

theorem run_par {ne n1 n2 o x} (h : Runs consumePegExpr (flatRule c!"expr" ne) o x) :
    Runs consumeParenth (flatRule c!"parenth" [.val c!"(", .rule c!"_" n1, .rule c!"expr" ne, .rule c!"_" n2, .val c!")"]) o (within [c!"consuming parenth"] x) := by
  obtain ⟨F, hF⟩ := h
  refine ⟨F + 1, fun f hf tail ctx => ?_⟩
  obtain ⟨f, rfl⟩ : ∃ g, f = g + 1 := ⟨f - 1, by omega⟩
  rw [consumeParenth]
  refine Gives.consuming (by decide) ?_
  have e : ∀ n, flatRule c!"_" n = [] := fun n => by rw [flatRule, if_pos (by decide)]
  have e0 : flatList [.val c!"(", .rule c!"_" n1, .rule c!"expr" ne, .rule c!"_" n2, .val c!")"] ++ .endRule c!"parenth" :: tail =
      .val c!"(" :: (flatRule c!"expr" ne ++ .val c!")" :: .endRule c!"parenth" :: tail) := by
    rw [flatList_val_rule, flatList_rule, flatList_rule, flatList_val (by simp), flatList_nil, e, e]
    simp
  rw [e0]
  refine Gives.bind (hF f (by omega) (.val c!")" :: .endRule c!"parenth" :: tail) ctx) ?_ (fun p h h' => ⟨h, h'⟩)
  rintro v rfl rfl
  rfl

end DP
