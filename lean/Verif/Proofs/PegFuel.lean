/-
More fuel does not change the outcome of the consumers of the PEG front end.
-/
import Verif.Proofs.Fuel
import Verif.Model.Peg

namespace DP.Peg

theorem le_bind {ε α β : Type} {x y : Out ε α} {f g : α → Out ε β} (h : Out.le x y)
    (hf : ∀ a, Out.le (f a) (g a)) : Out.le (x >>= f) (y >>= g) := by
  rcases h with h | h
  · subst h; exact Or.inl rfl
  · subst h
    cases x with
    | ok a => exact hf a
    | _ => exact Or.inr rfl

theorem le_bind_r {ε α β : Type} {x : Out ε α} {f g : α → Out ε β} (hf : ∀ a, Out.le (f a) (g a)) :
    Out.le (x >>= f) (x >>= g) := le_bind (Out.le_refl x) hf

theorem le_pushErr {α : Type} {d : Str} {x y : Out PegError α} (h : Out.le x y) :
    Out.le (pushErr d x) (pushErr d y) := by
  rcases h with h | h
  · subst h; exact Or.inl rfl
  · subst h; exact Or.inr rfl

theorem le_consuming {α : Type} {n nodes ctx} {f g : List FNode → Context → Res α}
    (h : ∀ a b, Out.le (f a b) (g a b)) : Out.le (consumingRule n nodes ctx f) (consumingRule n nodes ctx g) := by
  unfold consumingRule
  apply le_pushErr
  apply le_bind_r; intro a
  apply le_bind (h _ _); intro b
  exact Out.le_refl _

theorem le_ite {ε α : Type} {c : Prop} [Decidable c] {a b a' b' : Out ε α} (h1 : Out.le a a')
    (h2 : Out.le b b') : Out.le (if c then a else b) (if c then a' else b') := by
  split
  · exact h1
  · exact h2

theorem dotSymbol_step : ∀ f acc nodes ctx,
    Out.le (recConsumeDotSymbol f acc nodes ctx) (recConsumeDotSymbol (f + 1) acc nodes ctx) := by
  intro f
  induction f with
  | zero => intro acc nodes ctx; exact Or.inl rfl
  | succ f ih =>
    intro acc nodes ctx
    rw [recConsumeDotSymbol, recConsumeDotSymbol]
    apply le_bind_r; intro a
    cases a with
    | val ch =>
      apply le_ite
      · apply le_bind_r; intro b
        apply le_bind_r; intro c
        exact ih _ _ _
      · exact Out.le_refl _
    | _ => exact Out.le_refl _

theorem ruleName_step (f nodes ctx) : Out.le (consumeRuleName f nodes ctx) (consumeRuleName (f + 1) nodes ctx) := by
  apply le_consuming; intro a b
  apply le_bind_r; intro c
  apply le_bind_r; intro d
  apply le_bind (dotSymbol_step _ _ _ _); intro e
  exact Out.le_refl _

theorem litEscCh_step : ∀ f acc nodes ctx,
    Out.le (recConsumeLitEscCh f acc nodes ctx) (recConsumeLitEscCh (f + 1) acc nodes ctx) := by
  intro f
  induction f with
  | zero => intro acc nodes ctx; exact Or.inl rfl
  | succ f ih =>
    intro acc nodes ctx
    rw [recConsumeLitEscCh, recConsumeLitEscCh]
    apply le_bind_r; intro a
    cases Flat.getNodename a with
    | ok nm =>
      apply le_ite
      · exact Out.le_refl _
      · apply le_bind_r; intro b
        exact ih _ _ _
    | error e =>
      apply le_bind_r; intro b
      exact ih _ _ _

theorem literalEsc_step (f nodes ctx) :
    Out.le (consumeLiteralEsc f nodes ctx) (consumeLiteralEsc (f + 1) nodes ctx) := by
  apply le_consuming; intro a b
  apply le_bind_r; intro c
  apply le_bind (litEscCh_step _ _ _ _); intro d
  exact Out.le_refl _

theorem literalString_step (f nodes ctx) :
    Out.le (consumeLiteralString f nodes ctx) (consumeLiteralString (f + 1) nodes ctx) := by
  apply le_consuming; intro a b
  apply le_bind_r; intro c
  apply le_bind_r; intro d
  apply le_ite
  · exact Out.le_refl _
  · apply le_ite
    · exact literalEsc_step _ _ _
    · exact Out.le_refl _

theorem literalExpr_step (f nodes ctx) :
    Out.le (consumeLiteralExpr f nodes ctx) (consumeLiteralExpr (f + 1) nodes ctx) := by
  apply le_bind (literalString_step _ _ _); intro d
  exact Out.le_refl _

theorem ruleRef_step (f nodes ctx) :
    Out.le (consumeRuleRef f nodes ctx) (consumeRuleRef (f + 1) nodes ctx) := by
  apply le_pushErr
  apply le_bind (ruleName_step _ _ _); intro d
  exact Out.le_refl _

theorem mbetween_step : ∀ f acc nodes ctx,
    Out.le (recConsumeMbetween f acc nodes ctx) (recConsumeMbetween (f + 1) acc nodes ctx) := by
  intro f
  induction f with
  | zero => intro acc nodes ctx; exact Or.inl rfl
  | succ f ih =>
    intro acc nodes ctx
    rw [recConsumeMbetween, recConsumeMbetween]
    apply le_bind_r; intro a
    cases Flat.getNodename a with
    | ok nm =>
      apply le_ite
      · apply le_bind_r; intro b
        exact ih _ _ _
      · exact Out.le_refl _
    | error e => exact Out.le_refl _

theorem match_step (f nodes ctx) :
    Out.le (consumeMatch f nodes ctx) (consumeMatch (f + 1) nodes ctx) := by
  apply le_consuming; intro a b
  apply le_bind_r; intro c
  apply le_bind_r; intro c
  apply le_bind_r; intro c
  apply le_bind_r; intro c
  apply le_bind (mbetween_step _ _ _ _); intro d
  exact Out.le_refl _

theorem error_step (f nodes ctx) :
    Out.le (consumeError f nodes ctx) (consumeError (f + 1) nodes ctx) := by
  apply le_bind
  · apply le_consuming; intro a b
    apply le_bind_r; intro c
    apply le_bind_r; intro c
    apply le_bind (literalString_step _ _ _); intro d
    exact Out.le_refl _
  · intro d
    exact Out.le_refl _

theorem expr_step : ∀ f,
    (∀ nodes ctx, Out.le (consumePegExpr f nodes ctx) (consumePegExpr (f + 1) nodes ctx)) ∧
    (∀ nodes ctx, Out.le (consumeOr f nodes ctx) (consumeOr (f + 1) nodes ctx)) ∧
    (∀ e nodes ctx, Out.le (recConsumeOr f e nodes ctx) (recConsumeOr (f + 1) e nodes ctx)) ∧
    (∀ nodes ctx, Out.le (consumeAnd f nodes ctx) (consumeAnd (f + 1) nodes ctx)) ∧
    (∀ e nodes ctx, Out.le (recConsumeAnd f e nodes ctx) (recConsumeAnd (f + 1) e nodes ctx)) ∧
    (∀ nodes ctx, Out.le (consumeRepOrNeg f nodes ctx) (consumeRepOrNeg (f + 1) nodes ctx)) ∧
    (∀ nodes ctx, Out.le (consumeAtomOrPar f nodes ctx) (consumeAtomOrPar (f + 1) nodes ctx)) ∧
    (∀ nodes ctx, Out.le (consumeAtom f nodes ctx) (consumeAtom (f + 1) nodes ctx)) ∧
    (∀ nodes ctx, Out.le (consumeParenth f nodes ctx) (consumeParenth (f + 1) nodes ctx)) := by
  intro f
  induction f with
  | zero =>
    refine ⟨?_, ?_, ?_, ?_, ?_, ?_, ?_, ?_, ?_⟩ <;> intros <;> exact Or.inl (by
      first
      | rw [consumePegExpr] | rw [consumeOr] | rw [recConsumeOr] | rw [consumeAnd] | rw [recConsumeAnd]
      | rw [consumeRepOrNeg] | rw [consumeAtomOrPar] | rw [consumeAtom] | rw [consumeParenth])
  | succ f ih =>
    obtain ⟨i1, i2, i3, i4, i5, i6, i7, i8, i9⟩ := ih
    refine ⟨?_, ?_, ?_, ?_, ?_, ?_, ?_, ?_, ?_⟩
    · intro nodes ctx
      rw [consumePegExpr, consumePegExpr]
      exact le_consuming i2
    · intro nodes ctx
      rw [consumeOr, consumeOr]
      apply le_pushErr
      apply le_bind (i3 _ _ _); intro a
      exact Out.le_refl _
    · intro e nodes ctx
      rw [recConsumeOr, recConsumeOr]
      apply le_consuming; intro a b
      apply le_bind (i4 _ _); intro a
      apply le_bind_r; intro c
      cases c with
      | val v => apply le_bind_r; intro d; exact i3 _ _ _
      | _ => exact Out.le_refl _
    · intro nodes ctx
      rw [consumeAnd, consumeAnd]
      apply le_bind (i5 _ _ _); intro a
      exact Out.le_refl _
    · intro e nodes ctx
      rw [recConsumeAnd, recConsumeAnd]
      apply le_consuming; intro a b
      apply le_bind_r; intro c
      apply le_bind_r; intro c
      apply le_ite
      · apply le_bind (error_step _ _ _); intro d; exact Out.le_refl _
      · apply le_bind (i6 _ _); intro a
        apply le_bind_r; intro c
        cases c with
        | beginRule n => exact le_ite (i5 _ _ _) (Out.le_refl _)
        | _ => exact Out.le_refl _
    · intro nodes ctx
      rw [consumeRepOrNeg, consumeRepOrNeg]
      apply le_consuming; intro a b
      apply le_bind_r; intro c
      have h2 : ∀ a b, Out.le (do
            let (expr, nodes, ctx) ← consumeAtomOrPar f a b
            let nextNode ← liftA (Flat.peekFirstNode nodes)
            match nextNode with
            | .val _ => do
              let (sep, nodes) ← liftA (Flat.consumeVal nodes)
              let e ← processRepetitionIndicator expr sep
              .ok (e, nodes, ctx)
            | _ => .ok (expr, nodes, ctx) : Res Expr) (do
            let (expr, nodes, ctx) ← consumeAtomOrPar (f + 1) a b
            let nextNode ← liftA (Flat.peekFirstNode nodes)
            match nextNode with
            | .val _ => do
              let (sep, nodes) ← liftA (Flat.consumeVal nodes)
              let e ← processRepetitionIndicator expr sep
              .ok (e, nodes, ctx)
            | _ => .ok (expr, nodes, ctx) : Res Expr) := by
        intro a b
        apply le_bind (i7 _ _); intro a
        exact Out.le_refl _
      cases c with
      | val v =>
        apply le_ite
        · apply le_bind_r; intro d
          apply le_bind (i7 _ _); intro a
          exact Out.le_refl _
        · exact Out.le_refl _
      | beginRule n => exact h2 _ _
      | endRule n => exact h2 _ _
      | eof => exact h2 _ _
    · intro nodes ctx
      rw [consumeAtomOrPar, consumeAtomOrPar]
      apply le_consuming; intro a b
      apply le_bind_r; intro c
      apply le_bind_r; intro c
      apply le_pushErr
      exact le_ite (i8 _ _) (le_ite (i9 _ _) (Out.le_refl _))
    · intro nodes ctx
      rw [consumeAtom, consumeAtom]
      apply le_consuming; intro a b
      apply le_bind_r; intro c
      apply le_bind_r; intro c
      apply le_pushErr
      exact le_ite (literalExpr_step _ _ _) (le_ite (ruleRef_step _ _ _) (le_ite (Out.le_refl _)
        (le_ite (match_step _ _ _) (Out.le_refl _))))
    · intro nodes ctx
      rw [consumeParenth, consumeParenth]
      apply le_consuming; intro a b
      apply le_bind_r; intro c
      apply le_bind (i1 _ _); intro a
      exact Out.le_refl _

theorem rule_step (f nodes ctx) : Out.le (consumeRule f nodes ctx) (consumeRule (f + 1) nodes ctx) := by
  apply le_consuming; intro a b
  apply le_bind (ruleName_step _ _ _); intro d
  apply le_bind_r; intro c
  apply le_bind ((expr_step f).1 _ _); intro d
  exact Out.le_refl _

theorem grammar_step : ∀ f,
    (∀ nodes ctx, Out.le (consumeGrammar f nodes ctx) (consumeGrammar (f + 1) nodes ctx)) ∧
    (∀ r nodes ctx, Out.le (recConsumeRulesOrModules f r nodes ctx)
      (recConsumeRulesOrModules (f + 1) r nodes ctx)) ∧
    (∀ nodes ctx, Out.le (consumeModule f nodes ctx) (consumeModule (f + 1) nodes ctx)) := by
  intro f
  induction f with
  | zero =>
    refine ⟨?_, ?_, ?_⟩ <;> intros <;> exact Or.inl (by
      first | rw [consumeGrammar] | rw [recConsumeRulesOrModules] | rw [consumeModule])
  | succ f ih =>
    obtain ⟨i1, i2, i3⟩ := ih
    refine ⟨?_, ?_, ?_⟩
    · intro nodes ctx
      rw [consumeGrammar, consumeGrammar]
      exact le_consuming (i2 _)
    · intro r nodes ctx
      rw [recConsumeRulesOrModules, recConsumeRulesOrModules]
      apply le_bind_r; intro a
      cases a with
      | beginRule n =>
        apply le_ite
        · apply le_bind (rule_step _ _ _); intro a; exact i2 _ _ _
        · apply le_ite
          · apply le_bind (i3 _ _); intro a; exact i2 _ _ _
          · exact Out.le_refl _
      | _ => exact Out.le_refl _
    · intro nodes ctx
      rw [consumeModule, consumeModule]
      apply le_consuming; intro a b
      apply le_bind_r; intro c
      apply le_bind_r; intro d
      apply le_bind (i1 _ _); intro a
      exact Out.le_refl _

theorem flatAst_step (f nodes) : Out.le (rulesFromFlatAstF f nodes) (rulesFromFlatAstF (f + 1) nodes) := by
  apply le_bind
  · exact le_consuming (grammar_step f).1
  · intro a; exact Out.le_refl _

end DP.Peg

namespace DP

theorem rulesFromPegF_step (s : Str) (f : Nat) : Out.le (rulesFromPegF f s) (rulesFromPegF (f + 1) s) := by
  unfold rulesFromPegF
  rcases parseWithDebugF_step s PegRules.parsePeg false f with h | h
  · rw [h]; exact Or.inl rfl
  · rw [h]
    cases parseWithDebugF (f + 1) s PegRules.parsePeg false with
    | ok ast => exact Peg.flatAst_step _ _
    | _ => exact Or.inr rfl

/-- the flat AST that `rules_from_peg` converts -/
def pegFlat (ast : Node) : List FNode := (ast.compact.prune [c!"_", c!"_1", c!"_eol"]).flatten

/-- the fuel-free conversion of a flat AST -/
noncomputable def rulesFromFlatAst (nodes : List FNode) : Out PegError SetOfRules :=
  limit fun f => Peg.rulesFromFlatAstF f nodes

/-- `rules_from_peg`, without fuel -/
theorem rulesFromPeg_eq (s : Str) : rulesFromPeg s =
    match parse s PegRules.parsePeg with
    | .ok ast => rulesFromFlatAst (pegFlat ast)
    | .err e => .err (.parser e)
    | .panic => .panic
    | .diverge => .diverge := by
  have hstep := parseWithDebugF_step s PegRules.parsePeg false
  cases hp : parse s PegRules.parsePeg with
  | diverge =>
    have : ∀ f, parseWithDebugF f s PegRules.parsePeg false = .diverge :=
      (limit_diverge_iff _).1 hp
    unfold rulesFromPeg
    rw [limit_diverge_iff]
    intro f
    unfold rulesFromPegF
    rw [this f]
  | err e =>
    obtain ⟨f, hf⟩ := fuel_of_parse hp (by simp)
    exact limit_of (rulesFromPegF_step s) (n := f) (by unfold rulesFromPegF; rw [hf]) (by simp)
  | panic =>
    obtain ⟨f, hf⟩ := fuel_of_parse hp (by simp)
    exact limit_of (rulesFromPegF_step s) (n := f) (by unfold rulesFromPegF; rw [hf]) (by simp)
  | ok ast =>
    obtain ⟨f, hf⟩ := fuel_of_parse hp (by simp)
    simp only
    by_cases hx : rulesFromFlatAst (pegFlat ast) = .diverge
    · have hd := (limit_diverge_iff _).1 hx
      rw [hx]
      unfold rulesFromPeg
      rw [limit_diverge_iff]
      intro g
      unfold rulesFromPegF
      rcases Nat.le_total f g with h | h
      · rw [mono_of_step hstep h hf (by simp)]
        exact hd g
      · by_cases hg : parseWithDebugF g s PegRules.parsePeg false = .diverge
        · rw [hg]
        · have := mono_of_step hstep h rfl hg
          rw [← this, hf]
          exact hd g
    · obtain ⟨g, hg⟩ := limit_ne (x := rulesFromFlatAst (pegFlat ast)) rfl hx
      refine limit_of (rulesFromPegF_step s) (n := max f g) ?_ hx
      unfold rulesFromPegF
      rw [mono_of_step hstep (Nat.le_max_left f g) hf (by simp)]
      exact mono_of_step (fun f => Peg.flatAst_step f (pegFlat ast)) (Nat.le_max_right f g) hg hx

end DP
