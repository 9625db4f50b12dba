/-
Fuel-free recursion equations of the parser.
-/
import Verif.Proofs.Sound

namespace DP

/-- `F` is a chain: more fuel does not change a finished result. -/
def Chain {ε α : Type} (F : Nat → Out ε α) : Prop := ∀ f, Out.le (F f) (F (f + 1))

theorem chain_const {ε α : Type} (x : Out ε α) : Chain (fun _ => x) := fun _ => Or.inr rfl

theorem limit_const {ε α : Type} (x : Out ε α) : limit (fun _ => x) = x := by
  by_cases h : x = .diverge
  · subst h; exact (limit_diverge_iff _).2 (fun _ => rfl)
  · exact limit_of (F := fun _ => x) (chain_const x) (n := 0) rfl h

theorem limit_bind {ε ε' α β : Type} {F : Nat → Out ε α} {K : Out ε α → Nat → Out ε' β}
    {H : Nat → Out ε' β} (hF : Chain F) (hK : ∀ x, Chain (K x)) (hKd : ∀ f, K .diverge f = .diverge)
    (h0 : H 0 = .diverge) (hs : ∀ f, H (f + 1) = K (F f) f) (hH : Chain H) :
    limit H = limit (K (limit F)) := by
  rcases limit_elim F with ⟨h1, h2⟩ | ⟨n, hn, hne⟩
  · have : limit (K (limit F)) = .diverge := by
      rw [h1, limit_diverge_iff]; exact hKd
    rw [this, limit_diverge_iff]
    intro m
    cases m with
    | zero => exact h0
    | succ m => rw [hs, h2, hKd]
  · generalize limit F = L at *
    have hge : ∀ f, n ≤ f → F f = L := fun f hf => mono_of_step hF hf hn hne
    rcases limit_elim (K L) with ⟨h1, h2⟩ | ⟨m, hm, hme⟩
    · rw [h1, limit_diverge_iff]
      intro f
      cases f with
      | zero => exact h0
      | succ f =>
        rw [hs]
        by_cases hf : F f = .diverge
        · rw [hf, hKd]
        · have := mono_of_step hF (Nat.le_max_left f n) rfl hf
          rw [hge _ (Nat.le_max_right f n)] at this
          rw [← this, h2]
    · refine limit_of hH (n := max m n + 1) ?_ hme
      rw [hs, hge _ (Nat.le_max_right m n)]
      exact mono_of_step (hK L) (Nat.le_max_left m n) hm hme

theorem limit_shift {ε α : Type} {F H : Nat → Out ε α} (hF : Chain F)
    (h0 : H 0 = .diverge) (hs : ∀ f, H (f + 1) = F f) : limit H = limit F := by
  have hH : Chain H := by
    intro f
    cases f with
    | zero => exact Or.inl h0
    | succ f => rw [hs, hs]; exact hF f
  rcases limit_elim F with ⟨h1, h2⟩ | ⟨n, hn, hne⟩
  · rw [h1, limit_diverge_iff]
    intro m
    cases m with
    | zero => exact h0
    | succ m => rw [hs, h2]
  · exact limit_of hH (n := n + 1) (by rw [hs, hn]) hne

section
variable (R : SetOfRules)

noncomputable def runAnd (st : Status) (es : List Expr) (acc : List Node) :=
  limit fun fuel => parseAnd R fuel st es acc
noncomputable def runOr (st : Status) (es : List Expr) (acc : Option Error) :=
  limit fun fuel => parseOr R fuel st es acc
noncomputable def runRepeat (e : Expr) (mn : Nat) (mx : Option Nat) (st : Status) (k : Nat)
    (acc : List Node) :=
  limit fun fuel => parseRepeat R fuel e mn mx st k acc

theorem chain_rule (st n) : Chain (fun f => parseRuleName R f st n) := fun f => (fuel_step R f).1 st n
theorem chain_expr (st e) : Chain (fun f => parseExpr R f st e) := fun f => (fuel_step R f).2.1 st e
theorem chain_and (st es acc) : Chain (fun f => parseAnd R f st es acc) :=
  fun f => (fuel_step R f).2.2.1 st es acc
theorem chain_or (st es acc) : Chain (fun f => parseOr R f st es acc) :=
  fun f => (fuel_step R f).2.2.2.1 st es acc
theorem chain_rep (e mn mx st k acc) : Chain (fun f => parseRepeat R f e mn mx st k acc) :=
  fun f => (fuel_step R f).2.2.2.2 e mn mx st k acc

theorem runExpr_simple (st a) : runExpr R st (.simple a) = parseAtomAsExpr st a := by
  unfold runExpr
  rw [limit_shift (F := fun _ => parseAtomAsExpr st a) (chain_const _)]
  · exact limit_const _
  · rw [parseExpr]
  · intro f; rw [parseExpr]

theorem runExpr_and (st es) : runExpr R st (.and es) = runAnd R st es [] := by
  unfold runExpr runAnd
  exact limit_shift (chain_and R st es []) (by rw [parseExpr]) (fun f => by rw [parseExpr])

theorem runExpr_or (st es) : runExpr R st (.or es) = runOr R st es none := by
  unfold runExpr runOr
  exact limit_shift (chain_or R st es none) (by rw [parseExpr]) (fun f => by rw [parseExpr])

theorem runExpr_rep (st e mn mx) : runExpr R st (.rep e mn mx) = runRepeat R e mn mx st 0 [] := by
  unfold runExpr runRepeat
  exact limit_shift (chain_rep R e mn mx st 0 []) (by rw [parseExpr]) (fun f => by rw [parseExpr])

theorem runExpr_not (st e) : runExpr R st (.not e) =
    match runExpr R st e with
    | .ok _ => raise st .not .normal
    | .err _ => .ok (st, [])
    | .panic => .panic
    | .diverge => .diverge := by
  unfold runExpr
  rw [limit_bind (F := fun f => parseExpr R f st e)
    (K := fun x _ => match x with
      | .ok _ => raise st .not .normal
      | .err _ => .ok (st, [])
      | .panic => .panic
      | .diverge => .diverge) (chain_expr R st e) (fun x => chain_const _) (fun _ => rfl)
      (by rw [parseExpr]) (fun f => by rw [parseExpr]; cases parseExpr R f st e <;> rfl)
      (chain_expr R st (.not e))]
  exact limit_const _

theorem runExpr_ruleName (st n) : runExpr R st (.ruleName n) = asExpr (runRule R st n) := by
  unfold runExpr runRule
  rw [limit_bind (F := fun f => parseRuleName R f st n) (K := fun x _ => asExpr x)
    (chain_rule R st n) (fun x => chain_const _) (fun _ => rfl)
      (by rw [parseExpr]) (fun f => by rw [parseExpr_ruleName]) (chain_expr R st _)]
  exact limit_const _

theorem runRule_eq (st n) : runRule R st n =
    let st1 := if st.traceRules then st.pushRule (c!"r:" ++ n) else st
    match R.get n with
    | none => raise st1 (.missingRule n) .critical
    | some e =>
      match runExpr R st1 e with
      | .ok (st, nodes) => .ok (st, .rule n nodes)
      | .err e => .err e
      | .panic => .panic
      | .diverge => .diverge := by
  unfold runRule
  simp only
  generalize hst : (if st.traceRules = true then st.pushRule (c!"r:" ++ n) else st) = st1
  cases hg : R.get n with
  | none =>
    rw [limit_shift (F := fun _ => raise st1 (.missingRule n) .critical) (chain_const _)]
    · exact limit_const _
    · rw [parseRuleName]
    · intro f; rw [parseRuleName, hst, hg]
  | some e =>
    unfold runExpr
    rw [limit_bind (F := fun f => parseExpr R f st1 e)
      (K := fun x _ => match x with
        | .ok (st, nodes) => .ok (st, .rule n nodes)
        | .err e => .err e
        | .panic => .panic
        | .diverge => .diverge) (chain_expr R st1 e) (fun x => chain_const _) (fun _ => rfl)
        (by rw [parseRuleName]) (fun f => by
          rw [parseRuleName, hst, hg]; simp only; cases parseExpr R f st1 e <;> rfl) (chain_rule R st n)]
    exact limit_const _

theorem runAnd_nil (st acc) : runAnd R st [] acc = .ok (st, acc) := by
  unfold runAnd
  rw [limit_shift (F := fun _ => .ok (st, acc)) (chain_const _)]
  · exact limit_const _
  · rw [parseAnd]
  · intro f; rw [parseAnd]

theorem runAnd_cons (st e es acc) : runAnd R st (e :: es) acc =
    match runExpr R st e with
    | .ok (st, vnodes) => runAnd R st es (acc ++ vnodes)
    | .err e => .err e
    | .panic => .panic
    | .diverge => .diverge := by
  unfold runAnd runExpr
  rw [limit_bind (F := fun f => parseExpr R f st e)
    (K := fun x f => match x with
      | .ok (st, vnodes) => parseAnd R f st es (acc ++ vnodes)
      | .err e => .err e
      | .panic => .panic
      | .diverge => .diverge) (chain_expr R st e) ?_ (fun _ => rfl)
      (by rw [parseAnd]) (fun f => by rw [parseAnd]; cases parseExpr R f st e <;> rfl) (chain_and R st (e :: es) acc)]
  · cases limit fun f => parseExpr R f st e <;> first | rfl | exact limit_const _
  · intro x
    cases x with
    | ok x => exact chain_and R x.1 es (acc ++ x.2)
    | err e => exact chain_const _
    | panic => exact chain_const _
    | diverge => exact chain_const _

theorem runOr_nil (st acc) : runOr R st [] acc =
    match acc with
    | some err => .err err
    | none => raise st .orLogic .normal := by
  unfold runOr
  rw [limit_shift (F := fun _ => match acc with
    | some err => .err err
    | none => raise st .orLogic .normal) (chain_const _)]
  · exact limit_const _
  · rw [parseOr]
  · intro f; cases acc <;> rw [parseOr]

theorem runOr_cons (st e es acc) : runOr R st (e :: es) acc =
    match runExpr R st e with
    | .ok result => .ok result
    | .err e => if e.priority = .critical then .err e else runOr R st es (deepErr acc e)
    | .panic => .panic
    | .diverge => .diverge := by
  unfold runOr runExpr
  rw [limit_bind (F := fun f => parseExpr R f st e)
    (K := fun x f => match x with
      | .ok result => .ok result
      | .err e => if e.priority = .critical then .err e else parseOr R f st es (deepErr acc e)
      | .panic => .panic
      | .diverge => .diverge) (chain_expr R st e) ?_ (fun _ => rfl)
      (by rw [parseOr]) (fun f => by rw [parseOr]; cases parseExpr R f st e <;> rfl) (chain_or R st (e :: es) acc)]
  · cases limit fun f => parseExpr R f st e with
    | err er =>
      simp only
      split
      · exact limit_const _
      · rfl
    | _ => exact limit_const _
  · intro x
    cases x with
    | ok x => exact chain_const _
    | err e =>
      simp only
      split
      · exact chain_const _
      · exact chain_or R st es _
    | panic => exact chain_const _
    | diverge => exact chain_const _

theorem runRepeat_eq (e mn mx st k acc) : runRepeat R e mn mx st k acc =
    match runExpr R st e with
    | .err err =>
      if mn ≤ k then
        if err.priority = .critical then .err err
        else .ok (st.setPotentialError err, acc)
      else .err err
    | .ok (st', vnodes) =>
      if mx = some (k + 1) then .ok (st', acc ++ vnodes)
      else runRepeat R e mn mx st' (k + 1) (acc ++ vnodes)
    | .panic => .panic
    | .diverge => .diverge := by
  have ht : (touchMaxBound mx k = true) = (mx = some (k + 1)) := by
    cases mx with
    | none => simp [touchMaxBound]
    | some m => simp [touchMaxBound]; exact eq_comm
  have hb : (bigMinBound mn k = true) = (mn ≤ k) := by simp [bigMinBound]
  unfold runRepeat runExpr
  rw [limit_bind (F := fun f => parseExpr R f st e)
    (K := fun x f => match x with
      | .err err =>
        if mn ≤ k then
          if err.priority = .critical then .err err
          else .ok (st.setPotentialError err, acc)
        else .err err
      | .ok (st', vnodes) =>
        if mx = some (k + 1) then .ok (st', acc ++ vnodes)
        else parseRepeat R f e mn mx st' (k + 1) (acc ++ vnodes)
      | .panic => .panic
      | .diverge => .diverge) (chain_expr R st e) ?_ (fun _ => rfl)
      (by rw [parseRepeat]) (fun f => ?_) (chain_rep R e mn mx st k acc)]
  · cases limit fun f => parseExpr R f st e with
    | ok x =>
      simp only
      split
      · exact limit_const _
      · rfl
    | _ => exact limit_const _
  · intro x
    cases x with
    | ok x =>
      simp only
      split
      · exact chain_const _
      · exact chain_rep R e mn mx _ _ _
    | err e => exact chain_const _
    | panic => exact chain_const _
    | diverge => exact chain_const _
  · rw [parseRepeat]
    cases parseExpr R f st e with
    | ok x => simp only [ht]
    | err er => simp only [hb]
    | panic => rfl
    | diverge => rfl

end

/-- `dynparser::parse` in terms of the fuel-free parser. -/
theorem parse_eq (s : Str) (R : SetOfRules) : parse s R =
    match runRule R (Status.init s) c!"main" with
    | .ok (st, ast) =>
      if st.pos.n = byteLen s then .ok ast
      else match st.potentialError with
        | some e => .err e
        | none => raise st .notConsumed .normal
    | .err e => .err e
    | .panic => .panic
    | .diverge => .diverge := by
  let K : Out Error (Status × Node) → Out Error Node := fun x => match x with
    | .ok (st, ast) =>
      if st.pos.n = byteLen s then .ok ast
      else match st.potentialError with
        | some e => .err e
        | none => raise st .notConsumed .normal
    | .err e => .err e
    | .panic => .panic
    | .diverge => .diverge
  have h1 : parse s R = limit (fun f => parseWithDebugF (f - 1) s R false) := by
    unfold parse
    refine (limit_shift (H := fun f => parseWithDebugF (f - 1) s R false)
      (parseWithDebugF_step s R false) ?_ (fun f => rfl)).symm
    simp [parseWithDebugF, parseMain, parseRuleName]
  rw [h1]
  unfold runRule
  rw [limit_bind (F := fun f => parseRuleName R f (Status.init s) c!"main") (K := fun x _ => K x)
    (chain_rule R _ _) (fun x => chain_const _) (fun _ => rfl)
      (by simp [parseWithDebugF, parseMain, parseRuleName])
      (fun f => by
        simp only [parseWithDebugF, parseMain, Nat.add_sub_cancel, K]
        simp only [Bool.false_eq_true, if_false]
        cases parseRuleName R f (Status.init s) c!"main" <;> rfl)
      (fun f => by
        cases f with
        | zero => exact Or.inl (by simp [parseWithDebugF, parseMain, parseRuleName])
        | succ f => exact parseWithDebugF_step s R false f)]
  rw [limit_const]

/-- `dynparser::parse_debug` in terms of the fuel-free parser. -/
theorem parseDebug_eq (s : Str) (R : SetOfRules) : parseDebug s R =
    match runRule R (Status.initDebug s true) c!"main" with
    | .ok (st, ast) =>
      if st.pos.n = byteLen s then .ok ast
      else match st.potentialError with
        | some e => .err e
        | none => raise st .notConsumed .normal
    | .err e => .err e
    | .panic => .panic
    | .diverge => .diverge := by
  let K : Out Error (Status × Node) → Out Error Node := fun x => match x with
    | .ok (st, ast) =>
      if st.pos.n = byteLen s then .ok ast
      else match st.potentialError with
        | some e => .err e
        | none => raise st .notConsumed .normal
    | .err e => .err e
    | .panic => .panic
    | .diverge => .diverge
  have h1 : parseDebug s R = limit (fun f => parseWithDebugF (f - 1) s R true) := by
    unfold parseDebug
    refine (limit_shift (H := fun f => parseWithDebugF (f - 1) s R true)
      (parseWithDebugF_step s R true) ?_ (fun f => rfl)).symm
    simp [parseWithDebugF, parseMain, parseRuleName]
  rw [h1]
  unfold runRule
  rw [limit_bind (F := fun f => parseRuleName R f (Status.initDebug s true) c!"main")
    (K := fun x _ => K x)
    (chain_rule R _ _) (fun x => chain_const _) (fun _ => rfl)
      (by simp [parseWithDebugF, parseMain, parseRuleName])
      (fun f => by
        simp only [parseWithDebugF, parseMain, Nat.add_sub_cancel, K]
        simp only [if_true]
        cases parseRuleName R f (Status.initDebug s true) c!"main" <;> rfl)
      (fun f => by
        cases f with
        | zero => exact Or.inl (by simp [parseWithDebugF, parseMain, parseRuleName])
        | succ f => exact parseWithDebugF_step s R true f)]
  rw [limit_const]

end DP
