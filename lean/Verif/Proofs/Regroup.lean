/-
Rewriting expressions: equal behaviour in every rule set, and the change of rule set.
-/
import Verif.Proofs.Forget
import Verif.Spec.Regroup

namespace DP
open Spec

/-- put nodes in front -/
def Out.push (ns : List Node) : Out Error (Status × List Node) → Out Error (Status × List Node)
  | .ok (st, v) => .ok (st, ns ++ v)
  | .err e => .err e
  | .panic => .panic
  | .diverge => .diverge

theorem push_nil (x) : Out.push [] x = x := by rcases x with ⟨_, _⟩ | _ | _ | _ <;> rfl
theorem push_push (a b x) : Out.push a (Out.push b x) = Out.push (a ++ b) x := by
  rcases x with ⟨_, _⟩ | _ | _ | _ <;> simp [Out.push]

theorem limit_congr {ε α β : Type} {F : Nat → Out ε α} {K : Out ε α → Out ε β} {H : Nat → Out ε β}
    (hF : Chain F) (hd : K .diverge = .diverge) (h : ∀ f, H f = K (F f)) :
    limit H = K (limit F) := by
  have hH : Chain H := by
    intro f
    rcases hF f with h1 | h1
    · left; rw [h, h1, hd]
    · right; rw [h, h, h1]
  rcases limit_elim F with ⟨h1, h2⟩ | ⟨n, hn, hne⟩
  · rw [h1, hd, limit_diverge_iff]
    intro m; rw [h, h2, hd]
  · by_cases hk : K (limit F) = .diverge
    · rw [hk, limit_diverge_iff]
      intro m
      rw [h]
      by_cases hm : F m = .diverge
      · rw [hm, hd]
      · rw [← limit_of hF rfl hm, hk]
    · exact limit_of hH (n := n) (by rw [h, hn]) hk

section
variable {R : SetOfRules}

theorem runAnd_acc (es : List Expr) : ∀ (st acc), runAnd R st es acc = Out.push acc (runAnd R st es []) := by
  induction es with
  | nil => intro st acc; simp [runAnd_nil, Out.push]
  | cons e es ih =>
    intro st acc
    rw [runAnd_cons, runAnd_cons]
    rcases runExpr R st e with ⟨st', v⟩ | _ | _ | _
    · simp only; rw [ih, ih _ ([] ++ v), push_push]; simp
    · rfl
    · rfl
    · rfl

/-- `?` on the way to the next part of a sequence -/
def Out.andThen (x : Out Error (Status × List Node)) (k : Status → Out Error (Status × List Node)) :
    Out Error (Status × List Node) :=
  match x with
  | .ok (st, v) => Out.push v (k st)
  | .err e => .err e
  | .panic => .panic
  | .diverge => .diverge

theorem andThen_assoc (x k l) : Out.andThen (Out.andThen x k) l = Out.andThen x (fun st => Out.andThen (k st) l) := by
  rcases x with ⟨st, v⟩ | _ | _ | _ <;> try rfl
  simp only [Out.andThen]
  rcases k st with ⟨st', v'⟩ | _ | _ | _ <;> try rfl
  exact (push_push v v' (l st')).symm

theorem seq_nil (st) : runExpr R st (.and []) = .ok (st, []) := by rw [runExpr_and, runAnd_nil]

theorem seq_cons (st e es) : runExpr R st (.and (e :: es)) =
    Out.andThen (runExpr R st e) (fun st => runExpr R st (.and es)) := by
  rw [runExpr_and, runAnd_cons]
  rcases runExpr R st e with ⟨st', v⟩ | _ | _ | _ <;> try rfl
  simp only [Out.andThen]
  rw [runAnd_acc, runExpr_and]; simp

theorem andThen_ok (st v k) : Out.andThen (.ok (st, v)) k = Out.push v (k st) := rfl

theorem seq_append (xs : List Expr) : ∀ (st) (ys : List Expr), runExpr R st (.and (xs ++ ys)) =
    Out.andThen (runExpr R st (.and xs)) (fun st => runExpr R st (.and ys)) := by
  induction xs with
  | nil => intro st ys; rw [seq_nil, andThen_ok, push_nil]; rfl
  | cons x xs ih =>
    intro st ys
    rw [List.cons_append, seq_cons, seq_cons, andThen_assoc]
    congr 1; funext st'; exact ih st' ys

theorem andThen_end (x : Out Error (Status × List Node)) : Out.andThen x (fun st => .ok (st, [])) = x := by
  rcases x with ⟨st, v⟩ | _ | _ | _ <;> simp [Out.andThen, Out.push]

theorem seq_single (st e) : runExpr R st (.and [e]) = runExpr R st e := by
  rw [seq_cons]
  simp only [seq_nil, andThen_end]

/-! choices -/

/-- the deeper of two ordinary errors, the second one on a tie -/
def deeper (a e : Error) : Error := if e.pos.n < a.pos.n then a else e

theorem deepErr_some {a e : Error} (ha : a.priority = .normal) : deepErr (some a) e = some (deeper a e) := by
  unfold deepErr deeper
  simp only [ha]
  by_cases h : e.pos.n < a.pos.n
  · cases e.priority <;> simp [Prio.gt, h]
  · cases e.priority <;> simp [Prio.gt, h]

theorem deepErr_none (e : Error) : deepErr none e = some e := rfl

theorem deeper_normal {a e : Error} (ha : a.priority = .normal) (he : e.priority = .normal) :
    (deeper a e).priority = .normal := by
  unfold deeper; split <;> assumption

theorem deeper_assoc (a b c : Error) : deeper (deeper a b) c = deeper a (deeper b c) := by
  unfold deeper; grind

theorem deeper_self (a : Error) : deeper a a = a := by simp [deeper]

theorem normal_of {p : Prio} (h : ¬ p = .critical) : p = .normal := by cases p <;> simp_all

/-- an error found earlier -/
def Out.worsen (acc : Option Error) (x : Out Error (Status × List Node)) : Out Error (Status × List Node) :=
  match x with
  | .ok r => .ok r
  | .err e => if e.priority = .critical then .err e else
      match acc with
      | none => .err e
      | some a => .err (deeper a e)
  | .panic => .panic
  | .diverge => .diverge

theorem runOr_acc (es : List Expr) : ∀ (st e acc), (∀ a, acc = some a → a.priority = .normal) →
    runOr R st (e :: es) acc = Out.worsen acc (runOr R st (e :: es) none) := by
  induction es with
  | nil =>
    intro st e acc ha
    rw [runOr_cons, runOr_cons]
    rcases runExpr R st e with r | er | _ | _ <;> try rfl
    simp only [deepErr_none, runOr_nil]
    split
    · simp [Out.worsen, *]
    · rename_i hc
      cases acc with
      | none => simp [Out.worsen, deepErr_none, hc]
      | some a => simp [Out.worsen, deepErr_some (ha a rfl), hc]
  | cons e' es ih =>
    intro st e acc ha
    rw [runOr_cons, runOr_cons]
    rcases runExpr R st e with r | er | _ | _ <;> try rfl
    simp only [deepErr_none]
    split
    · simp [Out.worsen, *]
    · rename_i hc
      have hn := normal_of hc
      cases acc with
      | none =>
        rw [deepErr_none]
        rcases runOr R st (e' :: es) (some er) with r | e2 | _ | _ <;> simp [Out.worsen]
      | some a =>
        rw [deepErr_some (ha a rfl), ih st e' (some (deeper a er)), ih st e' (some er)]
        · rcases runOr R st (e' :: es) none with r | e2 | _ | _ <;> try rfl
          by_cases h2 : e2.priority = .critical
          · simp [Out.worsen, h2]
          · have := deeper_normal hn (normal_of h2)
            simp [Out.worsen, h2, this, deeper_assoc]
        · intro b hb; cases hb; exact hn
        · intro b hb; cases hb; exact deeper_normal (ha a rfl) hn

theorem runOr_append (xs : List Expr) : ∀ (x st) (ys : List Expr) (acc),
    (∀ a, acc = some a → a.priority = .normal) → runOr R st (x :: xs ++ ys) acc =
    match runOr R st (x :: xs) acc with
    | .ok r => .ok r
    | .err e => if e.priority = .critical then .err e else runOr R st ys (some e)
    | .panic => .panic
    | .diverge => .diverge := by
  induction xs with
  | nil =>
    intro x st ys acc ha
    rw [List.cons_append, List.nil_append, runOr_cons, runOr_cons]
    rcases runExpr R st x with r | er | _ | _ <;> try rfl
    simp only [runOr_nil]
    by_cases hc : er.priority = .critical
    · simp [hc]
    · cases acc with
      | none => simp [deepErr_none, hc]
      | some a => simp [deepErr_some (ha a rfl), deeper_normal (ha a rfl) (normal_of hc), hc]
  | cons x' xs ih =>
    intro x st ys acc ha
    rw [List.cons_append, runOr_cons, runOr_cons R st x]
    rcases runExpr R st x with r | er | _ | _ <;> try rfl
    simp only
    by_cases hc : er.priority = .critical
    · simp [hc]
    · rw [if_neg hc, if_neg hc, ih]
      intro b hb
      cases acc with
      | none => cases hb; exact normal_of hc
      | some a => rw [deepErr_some (ha a rfl)] at hb; cases hb; exact deeper_normal (ha a rfl) (normal_of hc)

theorem runOr_prefix (xs : List Expr) {es es' : List Expr} {st : Status}
    (h : ∀ acc, (∀ a, acc = some a → a.priority = .normal) → runOr R st es acc = runOr R st es' acc) :
    ∀ acc, (∀ a, acc = some a → a.priority = .normal) →
      runOr R st (xs ++ es) acc = runOr R st (xs ++ es') acc := by
  induction xs with
  | nil => exact h
  | cons x xs ih =>
    intro acc ha
    rw [List.cons_append, List.cons_append, runOr_cons, runOr_cons]
    rcases runExpr R st x with r | er | _ | _ <;> try rfl
    simp only
    by_cases hc : er.priority = .critical
    · simp [hc]
    · rw [if_neg hc, if_neg hc]
      apply ih
      intro b hb
      cases acc with
      | none => cases hb; exact normal_of hc
      | some a => rw [deepErr_some (ha a rfl)] at hb; cases hb; exact deeper_normal (ha a rfl) (normal_of hc)

theorem choice_prefix (xs : List Expr) {es es' : List Expr} {st : Status}
    (h : ∀ acc, (∀ a, acc = some a → a.priority = .normal) → runOr R st es acc = runOr R st es' acc) :
    runExpr R st (.or (xs ++ es)) = runExpr R st (.or (xs ++ es')) := by
  rw [runExpr_or, runExpr_or]; exact runOr_prefix xs h none (by simp)

theorem choice_nest (xs y ys zs st) :
    runExpr R st (.or (xs ++ .or (y :: ys) :: zs)) = runExpr R st (.or (xs ++ (y :: ys) ++ zs)) := by
  rw [List.append_assoc]
  refine choice_prefix xs fun acc ha => ?_
  rw [runOr_append _ _ _ _ _ ha, runOr_acc ys st y acc ha, runOr_cons, runExpr_or]
  rcases runOr R st (y :: ys) none with r | er | _ | _ <;> try rfl
  by_cases hc : er.priority = .critical
  · simp [Out.worsen, hc]
  · cases acc with
    | none => simp [Out.worsen, hc, deepErr_none]
    | some a =>
      simp [Out.worsen, hc, deepErr_some (ha a rfl), deeper_normal (ha a rfl) (normal_of hc)]

theorem choice_single (st e) : runExpr R st (.or [e]) = runExpr R st e := by
  rw [runExpr_or, runOr_cons]
  rcases runExpr R st e with r | er | _ | _ <;> try rfl
  simp [runOr_nil, deepErr_none]

theorem choice_twice (st e) : runExpr R st (.or [e, e]) = runExpr R st e := by
  simp only [runExpr_or, runOr_cons]
  rcases runExpr R st e with r | er | _ | _ <;> try rfl
  by_cases hc : er.priority = .critical
  · simp [hc]
  · simp [runOr_nil, deepErr_none, deepErr_some (normal_of hc), deeper_self, hc]

theorem choice_factor (st e xs ys) : runExpr R st (.or [.and (e :: xs), .and (e :: ys)]) =
    runExpr R st (.and [e, .or [.and xs, .and ys]]) := by
  rw [runExpr_or]; simp only [runOr_cons]
  simp only [seq_cons, seq_nil, runExpr_or, andThen_end, runOr_nil]
  rcases runExpr R st e with ⟨st', v⟩ | er | _ | _ <;> try rfl
  · simp only [Out.andThen, runOr_cons, runOr_nil]
    rcases runExpr R st' (.and xs) with ⟨st2, v2⟩ | er | _ | _ <;> try rfl
    simp only [Out.push]
    by_cases hc : er.priority = .critical
    · simp [hc]
    · simp only [if_neg hc, deepErr_none]
      rcases runExpr R st' (.and ys) with ⟨st2, v2⟩ | e2 | _ | _ <;> try rfl
      simp only [deepErr_some (normal_of hc)]
      split <;> rfl
  · simp only [Out.andThen, deepErr_none]
    by_cases hc : er.priority = .critical
    · simp [hc]
    · simp [hc, deepErr_some (normal_of hc), deeper_self]

/-! repetitions -/

theorem parseRepeat_acc (f e mn mx) : ∀ (st k acc),
    parseRepeat R f e mn mx st k acc = Out.push acc (parseRepeat R f e mn mx st k []) := by
  induction f with
  | zero => intros; simp [parseRepeat, Out.push]
  | succ f ih =>
    intro st k acc
    rw [parseRepeat, parseRepeat]
    rcases parseExpr R f st e with ⟨st', v⟩ | er | _ | _ <;> try rfl
    · simp only
      split
      · simp [Out.push]
      · rw [ih, ih _ _ ([] ++ v), push_push]; simp
    · simp only
      split
      · split <;> simp [Out.push]
      · rfl

theorem runRepeat_acc (e mn mx st k acc) :
    runRepeat R e mn mx st k acc = Out.push acc (runRepeat R e mn mx st k []) := by
  unfold runRepeat
  exact limit_congr (chain_rep R e mn mx st k []) rfl (fun f => parseRepeat_acc f e mn mx st k acc)

theorem parseRepeat_shift (f e mn mx) : ∀ (st k acc),
    parseRepeat R f e (mn + 1) (mx.map (· + 1)) st (k + 1) acc = parseRepeat R f e mn mx st k acc := by
  induction f with
  | zero => intros; simp [parseRepeat]
  | succ f ih =>
    intro st k acc
    rw [parseRepeat, parseRepeat]
    have h1 : bigMinBound (mn + 1) (k + 1) = bigMinBound mn k := by simp [bigMinBound]
    have h2 : touchMaxBound (mx.map (· + 1)) (k + 1) = touchMaxBound mx k := by
      cases mx <;> simp [touchMaxBound]
    rw [h1, h2]
    rcases parseExpr R f st e with ⟨st', v⟩ | er | _ | _ <;> try rfl
    simp only [ih]

theorem runRepeat_shift (e mn mx st k acc) :
    runRepeat R e (mn + 1) (mx.map (· + 1)) st (k + 1) acc = runRepeat R e mn mx st k acc := by
  unfold runRepeat
  congr 1; funext f; exact parseRepeat_shift f e mn mx st k acc

theorem rep_unroll (st e mn mx) (h : mx ≠ some 0) : runExpr R st (.rep e (mn + 1) (mx.map (· + 1))) =
    runExpr R st (.and [e, .rep e mn mx]) := by
  rw [seq_cons, runExpr_rep, runRepeat_eq]
  simp only [seq_single, runExpr_rep]
  rcases runExpr R st e with ⟨st', v⟩ | er | _ | _ <;> try rfl
  · simp only [Out.andThen]
    rw [if_neg (by cases mx with
      | none => simp
      | some m => simp only [Option.map_some, Option.some.injEq, Nat.zero_add]; intro h'; exact h (by simp; omega))]
    rw [runRepeat_acc, runRepeat_shift]; simp

theorem rep_once (st e mn) : runExpr R st (.rep e (mn + 1) (some 1)) = runExpr R st e := by
  rw [runExpr_rep, runRepeat_eq]
  rcases runExpr R st e with ⟨st', v⟩ | er | _ | _ <;> simp

theorem parseRepeat_zero (f e mn) : ∀ (st k acc),
    parseRepeat R f e mn (some 0) st k acc = parseRepeat R f e mn none st k acc := by
  induction f with
  | zero => intros; simp [parseRepeat]
  | succ f ih =>
    intro st k acc
    rw [parseRepeat, parseRepeat]
    rcases parseExpr R f st e with ⟨st', v⟩ | er | _ | _ <;> try rfl
    simp [touchMaxBound, ih]

theorem rep_zero (st e mn) : runExpr R st (.rep e mn (some 0)) = runExpr R st (.rep e mn none) := by
  rw [runExpr_rep, runExpr_rep]
  unfold runRepeat
  congr 1; funext f; exact parseRepeat_zero f e mn st 0 []

/-- a repetition that may be empty has no ordinary errors -/
theorem parseRepeat_err (f e mn mx) : ∀ (st k acc er), mn ≤ k →
    parseRepeat R f e mn mx st k acc = .err er → er.priority = .critical := by
  induction f with
  | zero => intro st k acc er _ h; simp [parseRepeat] at h
  | succ f ih =>
    intro st k acc er hk h
    rw [parseRepeat] at h
    rcases hx : parseExpr R f st e with ⟨st', v⟩ | er' | _ | _ <;> rw [hx] at h <;> simp only at h
    · split at h
      · cases h
      · exact ih _ _ _ _ (by omega) h
    · have : bigMinBound mn k = true := by simpa [bigMinBound] using hk
      rw [if_pos this] at h
      split at h
      · cases h; assumption
      · cases h
    · cases h
    · cases h

theorem rep_err {st e mx er} (h : runExpr R st (.rep e 0 mx) = .err er) : er.priority = .critical := by
  rw [runExpr_rep] at h
  obtain ⟨f, hf⟩ := limit_ne h (by simp)
  exact parseRepeat_err f e 0 mx st 0 [] er (Nat.le_refl _) hf

theorem choice_committed (st e ys) (h : ∀ er, runExpr R st e = .err er → er.priority = .critical) :
    runExpr R st (.or (e :: ys)) = runExpr R st e := by
  rw [runExpr_or, runOr_cons]
  rcases hx : runExpr R st e with r | er | _ | _ <;> try rfl
  simp [h er hx]

theorem raise_prio {α : Type} {st d p e} (h : raise (α := α) st d p = .err e) : e.priority = p := by
  unfold raise fromStatus at h
  cases hs : slice st.text2parse st.pos.startLine st.pos.n with
  | none => rw [hs] at h; cases h
  | some l => rw [hs] at h; cases h; rfl

theorem sameRun_error (st m) : runExpr R st (.simple (.error m)) =
    match raise (α := Status × Node) st (.custom m) .critical with
    | .ok (st, node) => .ok (st, [node])
    | .err e => .err e
    | .panic => .panic
    | .diverge => .diverge := by
  rw [runExpr_simple]; rfl

theorem error_not_ok {st m r} : runExpr R st (.simple (.error m)) ≠ .ok r := by
  rw [sameRun_error]
  rcases hx : raise (α := Status × Node) st (.custom m) .critical with ⟨st', v⟩ | er | _ | _ <;> simp
  unfold raise at hx; split at hx <;> cases hx

theorem error_err {st m er} (h : runExpr R st (.simple (.error m)) = .err er) : er.priority = .critical := by
  rw [sameRun_error] at h
  rcases hx : raise (α := Status × Node) st (.custom m) .critical with ⟨st', v⟩ | er | _ | _ <;> rw [hx] at h <;> cases h
  exact raise_prio hx

theorem rep_congr_le {e e' : Expr} (h : ∀ st, runExpr R st e = runExpr R st e') (mn mx) : ∀ (f st k acc),
    parseRepeat R f e mn mx st k acc ≠ .diverge →
    runRepeat R e' mn mx st k acc = parseRepeat R f e mn mx st k acc := by
  intro f
  induction f with
  | zero => intro st k acc hd; simp [parseRepeat] at hd
  | succ f ih =>
    intro st k acc hd
    have hx : parseExpr R f st e ≠ .diverge := by
      intro hx; rw [parseRepeat, hx] at hd; exact hd rfl
    have h2 := runExpr_of rfl hx
    rw [runRepeat_eq, ← h, h2]
    rw [parseRepeat] at hd ⊢
    have ht : ∀ k, (touchMaxBound mx k = true) = (mx = some (k + 1)) := by
      intro k
      cases mx with
      | none => simp [touchMaxBound]
      | some m => simp [touchMaxBound]; exact eq_comm
    have hb : (bigMinBound mn k = true) = (mn ≤ k) := by simp [bigMinBound]
    rcases hy : parseExpr R f st e with ⟨st', v⟩ | er | _ | _ <;> try rfl
    · rw [hy] at hd
      simp only [ht] at hd ⊢
      by_cases hm : mx = some (k + 1)
      · simp [hm]
      · rw [if_neg hm] at hd
        rw [if_neg hm, if_neg hm, ih _ _ _ hd]
    · simp only [hb]

theorem limit_antisymm {ε α : Type} {F H : Nat → Out ε α} (h1 : ∀ f, F f ≠ .diverge → limit H = F f)
    (h2 : ∀ f, H f ≠ .diverge → limit F = H f) : limit F = limit H := by
  rcases limit_elim F with ⟨h, _⟩ | ⟨n, hn, hne⟩
  · rcases limit_elim H with ⟨h', _⟩ | ⟨n', hn', hne'⟩
    · rw [h, h']
    · rw [h2 n' (by rw [hn']; exact hne'), hn']
  · rw [h1 n (by rw [hn]; exact hne), hn]

theorem rep_congr {e e' : Expr} (h : ∀ st, runExpr R st e = runExpr R st e') (mn mx st k acc) :
    runRepeat R e mn mx st k acc = runRepeat R e' mn mx st k acc :=
  limit_antisymm (fun f hd => rep_congr_le h mn mx f st k acc hd)
    (fun f hd => rep_congr_le (fun st => (h st).symm) mn mx f st k acc hd)

/-! repetitions of repetitions -/

/-- an unbounded repetition ends with an error that it remembers -/
theorem parseRepeat_stop (e mn) : ∀ f st k acc st' v, parseRepeat R f e mn none st k acc = .ok (st', v) →
    ∃ er, er.priority ≠ .critical ∧ st'.potentialError = some er ∧ runExpr R st' e = .err er := by
  intro f
  induction f with
  | zero => intro st k acc st' v h; simp [parseRepeat] at h
  | succ f ih =>
    intro st k acc st' v h
    rw [parseRepeat] at h
    rcases hx : parseExpr R f st e with ⟨st1, v1⟩ | er | _ | _ <;> rw [hx] at h <;> simp only at h
    · simp only [touchMaxBound] at h
      exact ih _ _ _ _ _ h
    · split at h
      · split at h
        · cases h
        · cases h
          exact ⟨er, by assumption, rfl, runExpr_recall (some er) (runExpr_of hx (by simp))⟩
      · cases h
    · cases h
    · cases h

theorem rep_stop {st st' : Status} {e mn v} (h : runExpr R st (.rep e mn none) = .ok (st', v)) :
    ∃ er, er.priority ≠ .critical ∧ st'.potentialError = some er ∧ runExpr R st' e = .err er := by
  rw [runExpr_rep] at h
  obtain ⟨f, hf⟩ := limit_ne h (by simp)
  exact parseRepeat_stop e mn f st 0 [] st' v hf

theorem recall_self {st : Status} {er} (h : st.potentialError = some er) : st.setPotentialError er = st := by
  unfold Status.setPotentialError; rw [← h]

theorem rep_again (st e mn mx) : runExpr R st (.and [.rep e mn none, .rep e 0 mx]) = runExpr R st (.rep e mn none) := by
  rw [seq_cons]
  rcases hx : runExpr R st (.rep e mn none) with ⟨st', v⟩ | er | _ | _ <;> try rfl
  obtain ⟨er, hn, hp, he⟩ := rep_stop hx
  rw [andThen_ok, seq_single, runExpr_rep, runRepeat_eq, he]
  simp [hn, recall_self hp, Out.push]

/-- after the first round it does not matter whether one was required -/
theorem parseRepeat_one (f e mx) : ∀ (st k acc),
    parseRepeat R f e 1 mx st (k + 1) acc = parseRepeat R f e 0 mx st (k + 1) acc := by
  induction f with
  | zero => intros; simp [parseRepeat]
  | succ f ih =>
    intro st k acc
    rw [parseRepeat, parseRepeat]
    have h : bigMinBound 1 (k + 1) = bigMinBound 0 (k + 1) := by simp [bigMinBound]
    rw [h]
    rcases parseExpr R f st e with ⟨st', v⟩ | er | _ | _ <;> try rfl
    simp only [ih]

theorem runRepeat_one (e mx st k acc) : runRepeat R e 1 mx st (k + 1) acc = runRepeat R e 0 mx st (k + 1) acc := by
  unfold runRepeat
  congr 1; funext f; exact parseRepeat_one f e mx st k acc

/-- one round or more, and none or more -/
theorem rep_zero_one (st e mx) : runExpr R st (.rep e 0 mx) =
    match runExpr R st (.rep e 1 mx) with
    | .err er => if er.priority = .critical then .err er else .ok (st.setPotentialError er, [])
    | x => x := by
  rcases hx : runExpr R st e with ⟨st', v⟩ | er | _ | _
  · have h : runExpr R st (.rep e 1 mx) = runExpr R st (.rep e 0 mx) := by
      rw [runExpr_rep, runExpr_rep, runRepeat_eq, runRepeat_eq (mn := 0), hx]
      simp only [runRepeat_one]
    rw [h]
    rcases hy : runExpr R st (.rep e 0 mx) with r | er | _ | _ <;> try rfl
    simp [rep_err hy]
  all_goals
    rw [runExpr_rep, runExpr_rep, runRepeat_eq, runRepeat_eq (mn := 1), hx]
  simp

theorem rep_option_one (st e mx) : runExpr R st (.rep (.rep e 1 mx) 0 (some 1)) = runExpr R st (.rep e 0 mx) := by
  rw [rep_zero_one st e mx, runExpr_rep, runRepeat_eq]
  rcases runExpr R st (.rep e 1 mx) with ⟨st', v⟩ | er | _ | _ <;> simp

theorem rep_option (st e mx) : runExpr R st (.rep (.rep e 0 mx) 0 (some 1)) = runExpr R st (.rep e 0 mx) := by
  rw [runExpr_rep, runRepeat_eq]
  rcases hx : runExpr R st (.rep e 0 mx) with ⟨st', v⟩ | er | _ | _ <;> simp
  exact rep_err hx

theorem rep_star (st e) : runExpr R st (.rep (.rep e 1 none) 0 none) = runExpr R st (.rep e 0 none) := by
  rw [rep_zero_one st e none, runExpr_rep, runRepeat_eq]
  rcases hx : runExpr R st (.rep e 1 none) with ⟨st', v⟩ | er | _ | _ <;> try simp
  obtain ⟨er, hn, hp, he⟩ := rep_stop hx
  have : runExpr R st' (.rep e 1 none) = .err er := by
    rw [runExpr_rep, runRepeat_eq, he]; simp
  rw [runRepeat_eq, this]
  simp [hn, recall_self hp]

theorem not_twice (st e) : runExpr R st (.and [.not e, .not e]) = runExpr R st (.not e) := by
  rw [seq_cons]
  rcases hx : runExpr R st (.not e) with ⟨st', v⟩ | er | _ | _ <;> try rfl
  have : st' = st ∧ v = [] := by
    rw [runExpr_not] at hx
    rcases hy : runExpr R st e with r | er | _ | _ <;> rw [hy] at hx <;> simp only at hx
    · unfold raise at hx; split at hx <;> cases hx
    · cases hx; exact ⟨rfl, rfl⟩
    · cases hx
    · cases hx
  obtain ⟨rfl, rfl⟩ := this
  rw [andThen_ok, seq_single, hx]; rfl

theorem or_else (st e xs) : runExpr R st (.or [e, .and (.not e :: xs)]) = runExpr R st (.or [e, .and xs]) := by
  rw [runExpr_or, runExpr_or, runOr_cons, runOr_cons]
  rcases hx : runExpr R st e with r | er | _ | _ <;> try rfl
  have : runExpr R st (.and (.not e :: xs)) = runExpr R st (.and xs) := by
    rw [seq_cons, runExpr_not, hx]
    simp only
    rw [andThen_ok, push_nil]
  simp only
  rw [runOr_cons, runOr_cons, this]

theorem option_rep (st e) : runExpr R st (.and [.rep e 0 (some 1), .rep e 0 none]) = runExpr R st (.rep e 0 none) := by
  rw [seq_cons, runExpr_rep, runExpr_rep, runRepeat_eq, runRepeat_eq (mx := none)]
  rcases hx : runExpr R st e with ⟨st', v⟩ | er | _ | _ <;> try rfl
  · simp only [Nat.zero_add, if_true, List.nil_append, reduceCtorEq, if_false, Out.andThen]
    rw [seq_single, runExpr_rep, runRepeat_acc (acc := v), ← runRepeat_one, ← runRepeat_shift e 0 none]
    rfl
  · simp only [Nat.le_refl, if_true]
    split
    · rfl
    · rename_i hn
      simp only [Out.andThen]
      have : runExpr R (st.setPotentialError er) e = .err er := runExpr_recall (some er) hx
      rw [seq_single, runExpr_rep, runRepeat_eq, this]
      simp [hn, Out.push, Status.setPotentialError]

/-! ### the laws -/

theorem same_run {e e' : Expr} (h : Same e e') : ∀ st, runExpr R st e = runExpr R st e' := by
  induction h with
  | refl => intro st; rfl
  | symm _ ih => intro st; exact (ih st).symm
  | trans _ _ ih1 ih2 => intro st; exact (ih1 st).trans (ih2 st)
  | and_at xs ys _ ih =>
    intro st
    rw [seq_append, seq_append]
    congr 1; funext st'; rw [seq_cons, seq_cons, ih]
  | or_at xs ys _ ih =>
    intro st
    refine choice_prefix xs fun acc _ => ?_
    rw [runOr_cons, runOr_cons, ih]
  | not _ ih => intro st; rw [runExpr_not, runExpr_not, ih]
  | @rep e e' mn mx _ ih =>
    intro st
    rw [runExpr_rep, runExpr_rep]
    exact rep_congr ih mn mx st 0 []
  | and_nest xs ys zs =>
    intro st
    rw [List.append_assoc, seq_append, seq_append]
    congr 1; funext st'; rw [seq_cons, seq_append]
  | or_nest xs y ys zs => intro st; exact choice_nest xs y ys zs st
  | and_single e => intro st; exact seq_single st e
  | or_single e => intro st; exact choice_single st e
  | or_twice e => intro st; exact choice_twice st e
  | factor e xs ys => intro st; exact choice_factor st e xs ys
  | or_optional e mx ys => intro st; exact choice_committed st _ ys (fun er h => rep_err h)
  | or_empty ys => intro st; exact choice_committed st _ ys (fun er h => by rw [seq_nil] at h; cases h)
  | or_error m ys => intro st; exact choice_committed st _ ys (fun er h => error_err h)
  | and_error m ys =>
    intro st
    rw [seq_cons]
    rcases hx : runExpr R st (.simple (.error m)) with r | er | _ | _ <;> try rfl
    exact absurd hx error_not_ok
  | rep_unroll e mn => intro st; exact rep_unroll st e mn none (by simp)
  | rep_unroll_max e mn m => intro st; exact rep_unroll st e mn (some (m + 1)) (by simp)
  | rep_once e mn => intro st; exact rep_once st e mn
  | rep_zero e mn => intro st; exact rep_zero st e mn
  | rep_star e => intro st; exact rep_star st e
  | rep_option e mx => intro st; exact rep_option st e mx
  | rep_option_one e mx => intro st; exact rep_option_one st e mx
  | rep_again e mn mx => intro st; exact rep_again st e mn mx
  | option_rep e => intro st; exact option_rep st e
  | not_twice e => intro st; exact not_twice st e
  | or_else e xs => intro st; exact or_else st e xs

end

/-! ### another set of rules -/

/-- `R'` has the same rules, up to expressions that `R'` does not tell apart. -/
def Simulates (R' R : SetOfRules) : Prop :=
  ∀ n, match R.get n, R'.get n with
    | some e, some e' => ∀ st, runExpr R' st e = runExpr R' st e'
    | none, none => True
    | _, _ => False

theorem simulate {R R' : SetOfRules} (h : Simulates R' R) : ∀ f,
    (∀ st n, parseRuleName R f st n ≠ .diverge → runRule R' st n = parseRuleName R f st n) ∧
    (∀ st e, parseExpr R f st e ≠ .diverge → runExpr R' st e = parseExpr R f st e) ∧
    (∀ st es acc, parseAnd R f st es acc ≠ .diverge → runAnd R' st es acc = parseAnd R f st es acc) ∧
    (∀ st es acc, parseOr R f st es acc ≠ .diverge → runOr R' st es acc = parseOr R f st es acc) ∧
    (∀ e mn mx st k acc, parseRepeat R f e mn mx st k acc ≠ .diverge →
      runRepeat R' e mn mx st k acc = parseRepeat R f e mn mx st k acc) := by
  intro f
  induction f with
  | zero =>
    refine ⟨?_, ?_, ?_, ?_, ?_⟩
    · intro st n hd; rw [parseRuleName] at hd; exact absurd rfl hd
    · intro st e hd; rw [parseExpr] at hd; exact absurd rfl hd
    · intro st es acc hd; rw [parseAnd] at hd; exact absurd rfl hd
    · intro st es acc hd; rw [parseOr] at hd; exact absurd rfl hd
    · intro e mn mx st k acc hd; rw [parseRepeat] at hd; exact absurd rfl hd
  | succ f ih =>
    obtain ⟨ihR, ihE, ihA, ihO, ihP⟩ := ih
    refine ⟨?_, ?_, ?_, ?_, ?_⟩
    · intro st n hd
      rw [runRule_eq]
      rw [parseRuleName] at hd ⊢
      have hn := h n
      simp only at hd ⊢
      cases hg : R.get n with
      | none =>
        cases hg' : R'.get n with
        | none => rfl
        | some e' => rw [hg, hg'] at hn; exact hn.elim
      | some e =>
        cases hg' : R'.get n with
        | none => rw [hg, hg'] at hn; exact hn.elim
        | some e' =>
          rw [hg, hg'] at hn
          rw [hg] at hd
          simp only at hn hd ⊢
          rw [← hn]
          have hx : parseExpr R f (if st.traceRules = true then st.pushRule (c!"r:" ++ n) else st) e ≠ .diverge := by
            intro hx; rw [hx] at hd; exact hd rfl
          rw [ihE _ _ hx]
          cases parseExpr R f (if st.traceRules = true then st.pushRule (c!"r:" ++ n) else st) e <;> rfl
    · intro st e hd
      cases e with
      | simple a => rw [runExpr_simple, parseExpr]
      | and es => rw [parseExpr] at hd ⊢; rw [runExpr_and, ihA _ _ _ hd]
      | or es => rw [parseExpr] at hd ⊢; rw [runExpr_or, ihO _ _ _ hd]
      | not e =>
        rw [parseExpr] at hd ⊢
        have hx : parseExpr R f st e ≠ .diverge := by intro hx; rw [hx] at hd; exact hd rfl
        rw [runExpr_not, ihE _ _ hx]
        cases parseExpr R f st e <;> rfl
      | rep e mn mx => rw [parseExpr] at hd ⊢; rw [runExpr_rep, ihP _ _ _ _ _ _ hd]
      | ruleName n =>
        rw [parseExpr_ruleName] at hd ⊢
        have hx : parseRuleName R f st n ≠ .diverge := by intro hx; rw [hx] at hd; exact hd rfl
        rw [runExpr_ruleName, ihR _ _ hx]
    · intro st es acc hd
      cases es with
      | nil => rw [runAnd_nil, parseAnd]
      | cons e es =>
        rw [parseAnd] at hd ⊢
        have hx : parseExpr R f st e ≠ .diverge := by intro hx; rw [hx] at hd; exact hd rfl
        rw [runAnd_cons, ihE _ _ hx]
        rcases hy : parseExpr R f st e with ⟨st', v⟩ | er | _ | _ <;> try rfl
        rw [hy] at hd
        exact ihA _ _ _ hd
    · intro st es acc hd
      cases es with
      | nil => rw [runOr_nil]; cases acc <;> rw [parseOr]
      | cons e es =>
        rw [parseOr] at hd ⊢
        have hx : parseExpr R f st e ≠ .diverge := by intro hx; rw [hx] at hd; exact hd rfl
        rw [runOr_cons, ihE _ _ hx]
        rcases hy : parseExpr R f st e with r | er | _ | _ <;> try rfl
        rw [hy] at hd
        simp only at hd ⊢
        by_cases hc : er.priority = .critical
        · simp [hc]
        · rw [if_neg hc] at hd
          rw [if_neg hc, if_neg hc, ihO _ _ _ hd]
    · intro e mn mx st k acc hd
      rw [parseRepeat] at hd ⊢
      have hx : parseExpr R f st e ≠ .diverge := by intro hx; rw [hx] at hd; exact hd rfl
      have ht : (touchMaxBound mx k = true) = (mx = some (k + 1)) := by
        cases mx with
        | none => simp [touchMaxBound]
        | some m => simp [touchMaxBound]; exact eq_comm
      have hb : (bigMinBound mn k = true) = (mn ≤ k) := by simp [bigMinBound]
      rw [runRepeat_eq, ihE _ _ hx]
      rcases hy : parseExpr R f st e with ⟨st', v⟩ | er | _ | _ <;> try rfl
      · rw [hy] at hd
        simp only [ht] at hd ⊢
        by_cases hm : mx = some (k + 1)
        · simp [hm]
        · rw [if_neg hm] at hd
          rw [if_neg hm, if_neg hm, ihP _ _ _ _ _ _ hd]
      · simp only [hb]

theorem simulate_rule {R R' : SetOfRules} (h : Simulates R' R) (h' : Simulates R R') (st n) :
    runRule R st n = runRule R' st n :=
  limit_antisymm (fun f hd => (simulate h f).1 st n hd) (fun f hd => (simulate h' f).1 st n hd)

theorem simulate_parse {R R' : SetOfRules} (h : Simulates R' R) (h' : Simulates R R') (s) :
    parse s R = parse s R' ∧ parseDebug s R = parseDebug s R' := by
  rw [parse_eq, parse_eq, parseDebug_eq, parseDebug_eq, simulate_rule h h', simulate_rule h h']
  exact ⟨rfl, rfl⟩

theorem simulates_of_same {R R' : SetOfRules} (h : SameRules R R') : Simulates R' R ∧ Simulates R R' := by
  constructor
  · intro n
    have := h n
    unfold SetOfRules.get
    cases h1 : R.entries.lookup n <;> cases h2 : R'.entries.lookup n <;> rw [h1, h2] at this <;>
      first | exact this | exact fun st => same_run this st
  · intro n
    have := h n
    unfold SetOfRules.get
    cases h1 : R.entries.lookup n <;> cases h2 : R'.entries.lookup n <;> rw [h1, h2] at this <;>
      first | exact this | exact fun st => (same_run this st).symm

end DP
