/-
C30, C31, C32, C39: `rules_from_peg` always returns, without panic on ASCII text, and what it builds.
-/
import Verif.Proofs.PegConsume

namespace DP
open Spec

/-! ### Concrete runs -/

/-- the entries of a successful result -/
def okRules : Out PegError SetOfRules → Option (List (Str × Expr))
  | .ok R => some R.entries
  | _ => none

theorem rulesFromPeg_of {s : Str} {l : List (Str × Expr)} (f : Nat) (h : okRules (rulesFromPegF f s) = some l) :
    rulesFromPeg s = .ok ⟨l⟩ := by
  cases hx : rulesFromPegF f s with
  | ok R =>
    rw [hx] at h
    cases R
    cases h
    exact limit_of (rulesFromPegF_step s) (n := f) hx (by simp)
  | _ => rw [hx] at h; cases h

/-- is it a panic? -/
def isPanic {ε α : Type} : Out ε α → Bool
  | .panic => true
  | _ => false

theorem rulesFromPeg_panic {s : Str} (f : Nat) (h : isPanic (rulesFromPegF f s) = true) :
    rulesFromPeg s = .panic := by
  cases hx : rulesFromPegF f s with
  | panic => exact limit_of (rulesFromPegF_step s) (n := f) hx (by simp)
  | _ => rw [hx] at h; cases h

/-- the rules of `"main = 'a'* / b\nb = .\n"` -/
def exPegRules : List (Str × Expr) :=
  [(c!"b", .simple .dot), (c!"main", .or [.rep (.simple (.literal c!"a")) 0 none, .ruleName c!"b"])]

theorem exPeg : rulesFromPeg c!"main = 'a'* / b\nb = .\n" = .ok ⟨exPegRules⟩ :=
  rulesFromPeg_of 200 (by decide +kernel)

/-! ### The conversion of the AST -/

/-- what the conversion of the flat AST of an accepted text yields -/
theorem flatAst_ends {s t} (h : parse s PegRules.parsePeg = .ok t) :
    (∃ R, rulesFromFlatAst (pegFlat t) = .ok R ∧ PegRulesOK R ∧ UniqueKeys R) ∨
      ∃ e, rulesFromFlatAst (pegFlat t) = .err e ∧ Peg.NotParser e := by
  have hm := Peg.main_ends (f := 2 * (pegFlat t).length + 1) (ctx := .new) (peg_flatOK h) (Nat.le_refl _)
  have hstep := fun f => Peg.flatAst_step f (pegFlat t)
  have hdef : ∀ f, Peg.rulesFromFlatAstF f (pegFlat t) = (Peg.consumeMain f (pegFlat t) .new >>= fun x =>
    if ! x.2.1.isEmpty then .err (Peg.errorPegS c!"expected empty nodes after processing main")
    else .ok x.1) := fun _ => rfl
  generalize hf : 2 * (pegFlat t).length + 1 = f at hm
  match hc : Peg.consumeMain f (pegFlat t) .new with
  | .ok (R, n', c) =>
    rw [hc] at hm
    cases hn : n'.isEmpty with
    | true =>
      refine Or.inl ⟨R, limit_of hstep (n := f) ?_ (by simp), hm.1⟩
      rw [hdef, hc]
      show (if (! n'.isEmpty) = true then _ else _) = _
      rw [hn]; rfl
    | false =>
      refine Or.inr ⟨_, limit_of hstep (n := f) (x := .err (Peg.errorPegS c!"expected empty nodes after processing main")) ?_ (by simp), trivial⟩
      rw [hdef, hc]
      show (if (! n'.isEmpty) = true then _ else _) = _
      rw [hn]; rfl
  | .err e =>
    rw [hc] at hm
    exact Or.inr ⟨e, limit_of hstep (n := f) (by rw [hdef, hc]; rfl) (by simp), hm⟩
  | .panic => rw [hc] at hm; exact hm.elim
  | .diverge => rw [hc] at hm; exact hm.elim

/-! ### C30 -/

/-- **C30**: `rules_from_peg` returns on every text. -/
theorem C30_always_returns (s : Str) : rulesFromPeg s ≠ .diverge := by
  rw [rulesFromPeg_eq]
  cases hp : parse s PegRules.parsePeg with
  | diverge => exact absurd hp (C12_well_formed_grammars_terminate pegWellFormed s).1
  | err e => simp
  | panic => simp
  | ok t =>
    rcases flatAst_ends hp with ⟨R, h, _⟩ | ⟨e, h, _⟩
    · simp [h]
    · simp [h]

/-! ### C31 -/

/-- **C31**: `rules_from_peg` does not panic on ASCII text. -/
theorem C31_no_panic_on_ascii {s : Str} (ha : Ascii s) : rulesFromPeg s ≠ .panic := by
  rw [rulesFromPeg_eq]
  cases hp : parse s PegRules.parsePeg with
  | panic => exact absurd hp (C16_no_panic_on_ascii _ ha)
  | err e => simp
  | diverge => simp
  | ok t =>
    rcases flatAst_ends hp with ⟨R, h, _⟩ | ⟨e, h, _⟩
    · simp [h]
    · simp [h]

/-- **C30**, **C31**: on ASCII text the outcome is a set of rules or an error. -/
theorem C31_total_on_ascii {s : Str} (ha : Ascii s) :
    (∃ R, rulesFromPeg s = .ok R) ∨ ∃ e, rulesFromPeg s = .err e := by
  cases h : rulesFromPeg s with
  | ok R => exact Or.inl ⟨R, rfl⟩
  | err e => exact Or.inr ⟨e, rfl⟩
  | panic => exact absurd h (C31_no_panic_on_ascii ha)
  | diverge => exact absurd h (C30_always_returns s)

/-- **C31**: the restriction to ASCII is necessary; no text with other characters is ever accepted … -/
theorem C31_ok_only_on_ascii {s : Str} {R : SetOfRules} (h : rulesFromPeg s = .ok R) : Ascii s := by
  rw [rulesFromPeg_eq] at h
  cases hp : parse s PegRules.parsePeg with
  | ok t => exact C17_ok_only_on_ascii hp
  | _ => rw [hp] at h; cases h

/-- … and already a comment may make it panic. -/
theorem C31_panic_on_non_ascii_comment : rulesFromPeg c!"main='a'\n//é\n" = .panic :=
  rulesFromPeg_panic 100 (by decide +kernel)

example : Ascii c!"main = \"\\0x41\"\n" ∧
    rulesFromPeg c!"main = \"\\0x41\"\n" = .ok ⟨[(c!"main", .simple (.literal c!"A"))]⟩ :=
  ⟨by decide, rulesFromPeg_of 200 (by decide +kernel)⟩

/-! ### C32 -/

/-- **C32**: the rules that `rules_from_peg` builds are in the normal form of the PEG notation, and each
name is defined once. -/
theorem C32_rules_in_normal_form {s : Str} {R : SetOfRules} (h : rulesFromPeg s = .ok R) :
    PegRulesOK R ∧ UniqueKeys R := by
  rw [rulesFromPeg_eq] at h
  cases hp : parse s PegRules.parsePeg with
  | ok t =>
    simp only [hp] at h
    rcases flatAst_ends hp with ⟨R', h', hq⟩ | ⟨e, h', _⟩
    · rw [h'] at h; cases h; exact hq
    · rw [h'] at h; cases h
  | _ => rw [hp] at h; cases h

example : PegRulesOK ⟨exPegRules⟩ ∧ UniqueKeys ⟨exPegRules⟩ := C32_rules_in_normal_form exPeg

mutual
theorem PegExpr.bounds : ∀ e, PegExpr e → BoundsOK e
  | .simple a, _ => .simple a
  | .ruleName n, _ => .ruleName n
  | .and es, h => .and (PegExpr.boundsL es (by cases h; assumption))
  | .or es, h => .or (PegExpr.boundsL es (by cases h; assumption))
  | .not e, h => .not (PegExpr.bounds e (by cases h; assumption))
  | .rep e mn mx, h => by
    refine .rep (PegExpr.bounds e (by cases h <;> assumption)) ?_
    cases h <;> simp
theorem PegExpr.boundsL : ∀ es : List Expr, (∀ e ∈ es, PegExpr e) → ∀ e ∈ es, BoundsOK e
  | [], _, _, he => by cases he
  | x :: es, h, e, he => by
    rcases List.mem_cons.mp he with hx | he
    · exact hx ▸ PegExpr.bounds x (h x (by simp))
    · exact PegExpr.boundsL es (fun y hy => h y (by simp [hy])) e he
end

/-- **C32**: consequently the bounds of repetitions are always satisfiable, so that the rules denote what
they say (see C07). -/
theorem C32_denotes {s : Str} {R : SetOfRules} (h : rulesFromPeg s = .ok R) : denotes R = grammar R :=
  denotes_of_boundsOK (fun ne hne => PegExpr.bounds ne.2 ((C32_rules_in_normal_form h).1 ne hne).2)

mutual
theorem PegExpr.noEof : ∀ e, PegExpr e → NoEof e
  | .simple a, h => .simple (by intro ha; subst ha; cases h)
  | .ruleName n, _ => .ruleName n
  | .and es, h => .and (PegExpr.noEofL es (by cases h; assumption))
  | .or es, h => .or (PegExpr.noEofL es (by cases h; assumption))
  | .not e, _ => .not e
  | .rep e mn mx, h => .rep (PegExpr.noEof e (by cases h <;> assumption))
theorem PegExpr.noEofL : ∀ es : List Expr, (∀ e ∈ es, PegExpr e) → ∀ e ∈ es, NoEof e
  | [], _, _, he => by cases he
  | x :: es, h, e, he => by
    rcases List.mem_cons.mp he with hx | he
    · exact hx ▸ PegExpr.noEof x (h x (by simp))
    · exact PegExpr.noEofL es (fun y hy => h y (by simp [hy])) e he
end

/-- **C32**: consequently the leaves of the AST of a text parsed with such rules spell the text (C03 without
its hypothesis). -/
theorem C32_leaves_spell_input {s t : Str} {R : SetOfRules} {ast : Node} (h : rulesFromPeg s = .ok R)
    (hp : parse t R = .ok ast) : text ast = t :=
  C03_leaves_spell_input (fun ne hne => PegExpr.noEof ne.2 ((C32_rules_in_normal_form h).1 ne hne).2) hp

example : ∃ ast, parse c!"aa" ⟨exPegRules⟩ = .ok ast ∧ text ast = c!"aa" :=
  ⟨.rule c!"main" [.val c!"a", .val c!"a"], parse_of_fuel (f := 20) (by decide +kernel) (by simp), rfl⟩

/-! ### C39 -/

/-- **C39**: `rules_from_peg` reports a parser error iff the built-in grammar rejects the text, and it is
that very error. -/
theorem C39_syntax_errors (s : Str) (e : Error) :
    rulesFromPeg s = .err (.parser e) ↔ parse s PegRules.parsePeg = .err e := by
  rw [rulesFromPeg_eq]
  cases hp : parse s PegRules.parsePeg with
  | err e' => simp
  | panic => simp
  | diverge => simp
  | ok t =>
    rcases flatAst_ends hp with ⟨R, h, _⟩ | ⟨e', h, hn⟩
    · simp [h]
    · simp only [h, Out.err.injEq, reduceCtorEq, iff_false]
      rintro rfl
      exact hn

/-- **C39** on an example: the error of the parser is passed on. -/
example : rulesFromPeg c!"main" = .err (.parser ⟨⟨4, 0, 4, 0⟩, .literal c!"{", c!"main", [], [], .normal⟩) :=
  (C39_syntax_errors _ _).2 (parse_of_fuel (f := 100) (by decide +kernel) (by simp))

end DP
