/-
What a bound on the calls in progress says about the rules that the consumers return.
-/
import Verif.Props.PegFront
import Verif.Props.TreeSize
import Verif.Spec.Spread

namespace DP.Peg
open Spec

/-- If the consumer returns a value then it satisfies `Q`, and the nodes left are the last ones. -/
def Oks {α : Type} (Q : α → Prop) (base : List FNode) : Res α → Prop
  | .ok (a, n', _) => Q a ∧ n' <:+ base
  | _ => True

section
variable {α β : Type} {Q : α → Prop} {Q' : β → Prop} {base n : List FNode}

theorem Oks.weaken {r : Res α} (h : Oks Q n r) (hs : n <:+ base) {Q2 : α → Prop} (hq : ∀ a, Q a → Q2 a) : Oks Q2 base r := by
  match r with
  | .ok (a, n', _) => exact ⟨hq a h.1, h.2.trans hs⟩
  | .err _ => trivial
  | .panic => trivial
  | .diverge => trivial

theorem Oks.bind {r : Res α} {f : α × List FNode × Context → Res β} (h : Oks Q base r)
    (hf : ∀ a n' c, Q a → n' <:+ base → Oks Q' base (f (a, n', c))) : Oks Q' base (r >>= f) := by
  match r with
  | .ok (a, n', c) => exact hf a n' c h.1 h.2
  | .err _ => trivial
  | .panic => trivial
  | .diverge => trivial

theorem Oks.push {d : Str} {r : Res α} (h : Oks Q base r) : Oks Q base (pushErr d r) := by
  match r with
  | .ok (a, n', c) => exact h
  | .err _ => trivial
  | .panic => trivial
  | .diverge => trivial

theorem Oks.ok {a : α} {c} (hq : Q a) (hs : n <:+ base) : Oks Q base (.ok (a, n, c)) := ⟨hq, hs⟩

theorem Oks.peek {f : FNode → Res β} (hf : ∀ x l, n = x :: l → Oks Q' base (f x)) :
    Oks Q' base (liftA (Flat.peekFirstNode n) >>= f) := by
  cases n with
  | nil => trivial
  | cons x l => exact hf x l rfl

theorem Oks.consumeVal {f : Str × List FNode → Res β} (hf : ∀ v l, n = .val v :: l → Oks Q' base (f (v, l))) :
    Oks Q' base (liftA (Flat.consumeVal n) >>= f) := by
  cases n with
  | nil => trivial
  | cons x l =>
    cases x with
    | val v => exact hf v l rfl
    | _ => trivial

theorem Oks.thisValue {w : Str} {f : List FNode → Res β} (hf : ∀ l, n = .val w :: l → Oks Q' base (f l)) :
    Oks Q' base (liftA (Flat.consumeThisValue w n) >>= f) := by
  cases n with
  | nil => trivial
  | cons x l =>
    cases x with
    | val v =>
      by_cases h : v = w
      · subst h
        rw [this_ok]
        exact hf l rfl
      · rw [this_err h]
        trivial
    | _ => trivial

theorem Oks.nodename {x : FNode} {f : Str → Res β} (hf : ∀ nm, Oks Q' base (f nm)) :
    Oks Q' base (liftA (Flat.getNodename x) >>= f) := by
  cases x with
  | beginRule nm => exact hf nm
  | endRule nm => exact hf nm
  | _ => trivial

theorem Oks.ite {c : Prop} [Decidable c] {a b : Res α} (h1 : c → Oks Q base a) (h2 : ¬ c → Oks Q base b) :
    Oks Q base (if c then a else b) := by
  split
  · exact h1 ‹_›
  · exact h2 ‹_›

theorem Oks.consuming {name : Str} {ctx : Context} {f : List FNode → Context → Res α}
    (hf : ∀ l, base = .beginRule name :: l → Oks Q l (f l ctx)) : Oks Q base (consumingRule name base ctx f) := by
  unfold consumingRule
  apply Oks.push
  cases base with
  | nil => trivial
  | cons x l =>
    cases x with
    | beginRule n =>
      by_cases h : n = name
      · subst h
        have hh := hf l rfl
        rw [start_ok]
        show Oks Q (.beginRule n :: l) (f l ctx >>= _)
        refine Oks.bind (hh.weaken (List.suffix_cons _ _) fun _ h => h) ?_
        intro a n' c ha hs
        show Oks Q (.beginRule n :: l) (liftA (Flat.consumeNodeEndRuleName n n') >>= _)
        cases n' with
        | nil => trivial
        | cons y l' =>
          cases y with
          | endRule m =>
            by_cases hm : m = n
            · subst hm
              rw [end_ok]
              exact Oks.ok ha ((List.suffix_cons _ l').trans hs)
            · rw [end_err hm]
              trivial
          | _ => trivial
      · rw [start_err h]
        trivial
    | _ => trivial

end

/-! ### Leaves -/

/-- well-formed nodes, whose values are made of characters of the text -/
def Good (s : Str) (n : List FNode) : Prop := FlatOK n ∧ ∀ v, FNode.val v ∈ n → ∀ c ∈ v, c ∈ s

theorem Good.suffix {s a b} (h : Good s a) (hs : b <:+ a) : Good s b :=
  ⟨h.1.suffix hs, fun v hv => h.2 v (hs.subset hv)⟩

theorem Good.tail {s x l} (h : Good s (x :: l)) : Good s l := h.suffix (List.suffix_cons _ _)

theorem no_dot {y : Str} (h : ValidSymbol y) : y.count '.' = 0 := by
  obtain ⟨c, cs, rfl, hc, hcs⟩ := h
  refine List.count_eq_zero.2 fun hm => ?_
  have hw : ¬ WordChar '.' := by unfold WordChar; decide
  rcases List.mem_cons.1 hm with hm | hm
  · exact hw (hm ▸ hc)
  · rcases hcs _ hm with h | h | h
    · exact hw h
    · exact absurd h (by decide)
    · exact absurd h (by decide)

theorem symbol_oks {s n ctx} (h : Good s n) : Oks (fun y => y.count '.' = 0) n (consumeSymbol n ctx) := by
  have := symbol_ends (ctx := ctx) h.1
  match hr : consumeSymbol n ctx with
  | .ok (y, n', c) =>
    rw [hr] at this
    exact ⟨no_dot this.1, this.2.1⟩
  | .err _ => trivial
  | .panic => trivial
  | .diverge => trivial

theorem dotSymbol_oks {s : Str} : ∀ f acc n ctx, Good s n →
    Oks (fun y => y.count '.' + 1 ≤ acc.count '.' + f) n (recConsumeDotSymbol f acc n ctx) := by
  intro f
  induction f with
  | zero => intro acc n ctx _; trivial
  | succ f ih =>
    intro acc n ctx hok
    rw [recConsumeDotSymbol]
    refine Oks.peek ?_
    rintro x l rfl
    cases x with
    | val ch =>
      refine Oks.ite (fun _ => ?_) (fun _ => Oks.ok (by omega) (List.suffix_refl _))
      refine Oks.consumeVal ?_
      rintro v l' h'
      cases h'
      refine Oks.weaken (n := l) ?_ (List.suffix_cons _ _) (fun _ h => h)
      refine Oks.bind (symbol_oks hok.tail) ?_
      intro y n' c hy hs
      refine (ih _ n' c (hok.tail.suffix hs)).weaken hs ?_
      intro a ha
      have e : (acc ++ c!"." ++ y).count '.' = acc.count '.' + 1 := by
        rw [List.count_append, List.count_append, hy]; rfl
      rw [e] at ha
      omega
    | _ => exact Oks.ok (by omega) (List.suffix_refl _)

theorem dotOrEmpty_oks {n ctx} : Oks (fun d => d.count '.' ≤ 1) n (getDotOrEmpty n ctx) := by
  unfold getDotOrEmpty
  refine Oks.peek ?_
  rintro x l rfl
  cases x with
  | val ch =>
    refine Oks.ite (fun _ => ?_) (fun _ => Oks.ok (by simp) (List.suffix_refl _))
    refine Oks.thisValue ?_
    intro l' h'
    cases h'
    exact Oks.ok (by decide) (List.suffix_cons _ _)
  | _ => exact Oks.ok (by simp) (List.suffix_refl _)

theorem ruleName_oks {s f n ctx} (hok : Good s n) : Oks (fun y => y.count '.' ≤ f) n (consumeRuleName f n ctx) := by
  unfold consumeRuleName
  refine Oks.consuming ?_
  rintro l rfl
  refine Oks.bind dotOrEmpty_oks ?_
  intro d n1 c1 hd hs1
  refine Oks.weaken ?_ hs1 (fun _ h => h)
  refine Oks.bind (symbol_oks (hok.tail.suffix hs1)) ?_
  intro y n2 c2 hy hs2
  refine Oks.weaken ?_ hs2 (fun _ h => h)
  refine Oks.bind (dotSymbol_oks f [] n2 c2 ((hok.tail.suffix hs1).suffix hs2)) ?_
  intro t n3 c3 ht hs3
  refine Oks.ok ?_ hs3
  rw [List.count_append, List.count_append, hy]
  simp at ht
  omega

theorem escaped_append (s a b : Str) : escaped s (a ++ b) = escaped s a + escaped s b := List.countP_append ..

theorem escaped_zero {s v : Str} (h : ∀ c ∈ v, c ∈ s) : escaped s v = 0 := by
  unfold escaped
  refine List.countP_eq_zero.2 fun c hc => ?_
  simp [h c hc]

theorem escaped_one (s : Str) (c : Char) : escaped s [c] ≤ 1 := List.countP_le_length (l := [c])

theorem escChar_oks {s n ctx} : Oks (fun v => escaped s v ≤ 1) n (consumeEscChar n ctx) := by
  unfold consumeEscChar
  refine Oks.consuming ?_
  rintro l rfl
  refine Oks.consumeVal ?_
  rintro v l' rfl
  have key : ∀ c : Char, Oks (fun v => escaped s v ≤ 1) (.val v :: l') ((.ok [c] : Out PegError Str) >>= fun val => .ok (val, l', ctx)) :=
    fun c => Oks.ok (escaped_one s c) (List.suffix_cons _ _)
  dsimp only
  split
  · exact key _
  · split
    · exact key _
    · split
      · exact key _
      · split
        · exact key _
        · split
          · exact key _
          · trivial

theorem hexChar_oks {s n ctx} : Oks (fun v => escaped s v ≤ 1) n (consumeHexChar n ctx) := by
  unfold consumeHexChar
  refine Oks.consuming ?_
  rintro l rfl
  refine Oks.consumeVal ?_
  rintro v l' rfl
  dsimp only
  split
  · trivial
  · split
    · exact Oks.ok (escaped_one s _) (List.suffix_cons _ _)
    · split
      · trivial
      · trivial

theorem element_oks {s n ctx} (hok : Good s n) : Oks (fun v => escaped s v ≤ 1) n (consumeElement n ctx) := by
  unfold consumeElement
  refine Oks.peek ?_
  rintro x l rfl
  cases x with
  | beginRule r => exact Oks.ite (fun _ => escChar_oks) (fun _ => Oks.ite (fun _ => hexChar_oks) (fun _ => trivial))
  | val v =>
    refine Oks.consumeVal ?_
    rintro v' l' h'
    cases h'
    refine Oks.ok ?_ (List.suffix_cons _ _)
    rw [escaped_zero (hok.2 v (by simp))]
    omega
  | _ => trivial

theorem litEscCh_oks {s : Str} : ∀ f acc n ctx, Good s n →
    Oks (fun v => escaped s v + 1 ≤ escaped s acc + f) n (recConsumeLitEscCh f acc n ctx) := by
  intro f
  induction f with
  | zero => intro acc n ctx _; trivial
  | succ f ih =>
    intro acc n ctx hok
    rw [recConsumeLitEscCh]
    refine Oks.peek ?_
    rintro x l rfl
    have hrec : Oks (fun v => escaped s v + 1 ≤ escaped s acc + (f + 1)) (x :: l) (do
        let (v, nodes, ctx) ← consumeElement (x :: l) ctx
        recConsumeLitEscCh f (acc ++ v) nodes ctx) := by
      refine Oks.bind (element_oks hok) ?_
      intro v n' c hv hs
      refine (ih _ n' c (hok.suffix hs)).weaken hs ?_
      intro a ha
      rw [escaped_append] at ha
      omega
    cases x with
    | beginRule r => exact Oks.ite (fun _ => Oks.ok (by omega) (List.suffix_refl _)) (fun _ => hrec)
    | endRule r => exact Oks.ite (fun _ => Oks.ok (by omega) (List.suffix_refl _)) (fun _ => hrec)
    | _ => exact hrec

theorem quote_oks {n ctx β} {Q' : β → Prop} {f : List FNode × Context → Res β}
    (hf : ∀ n' c, n' <:+ n → Oks Q' n (f (n', c))) : Oks Q' n (consumeQuote n ctx >>= f) := by
  rw [consumeQuote_eq, assoc]
  refine Oks.bind (Q := Any) ?_ ?_
  · refine Oks.consuming ?_
    rintro l rfl
    refine Oks.thisValue ?_
    rintro l' rfl
    exact Oks.ok trivial (List.suffix_cons _ _)
  · intro a n' c _ hs
    exact hf n' c hs

theorem singleQuote_oks {n ctx β} {Q' : β → Prop} {f : List FNode × Context → Res β}
    (hf : ∀ n' c, n' <:+ n → Oks Q' n (f (n', c))) : Oks Q' n (consumeSingleQuote n ctx >>= f) := by
  rw [consumeSingleQuote_eq, assoc]
  refine Oks.bind (Q := Any) ?_ ?_
  · refine Oks.consuming ?_
    rintro l rfl
    refine Oks.thisValue ?_
    rintro l' rfl
    exact Oks.ok trivial (List.suffix_cons _ _)
  · intro a n' c _ hs
    exact hf n' c hs

theorem literalEsc_oks {s f n ctx} (hok : Good s n) : Oks (fun v => escaped s v + 1 ≤ f) n (consumeLiteralEsc f n ctx) := by
  unfold consumeLiteralEsc
  refine Oks.consuming ?_
  rintro l rfl
  refine quote_oks ?_
  intro n1 c1 hs1
  refine Oks.weaken ?_ hs1 (fun a h => h)
  refine Oks.bind (litEscCh_oks f [] n1 c1 (hok.tail.suffix hs1)) ?_
  intro v n2 c2 hv hs2
  apply Oks.push
  refine Oks.weaken ?_ hs2 (fun a h => h)
  refine quote_oks ?_
  intro n3 c3 hs3
  refine Oks.ok ?_ hs3
  simpa [escaped] using hv

theorem doubleBackslashes_mem : ∀ {v : Str} {c : Char}, c ∈ doubleBackslashes v → c ∈ v
  | [], _, h => by simp [doubleBackslashes] at h
  | x :: v, c, h => by
    rw [doubleBackslashes] at h
    split at h
    · rename_i hx
      simp only [List.mem_cons] at h ⊢
      rcases h with rfl | rfl | h
      · exact Or.inl hx.symm
      · exact Or.inl hx.symm
      · exact Or.inr (doubleBackslashes_mem h)
    · rcases List.mem_cons.1 h with rfl | h
      · simp
      · exact List.mem_cons_of_mem _ (doubleBackslashes_mem h)

theorem literalNoEsc_oks {s n ctx} (hok : Good s n) : Oks (fun v => escaped s v = 0) n (consumeLiteralNoEsc n ctx) := by
  unfold consumeLiteralNoEsc
  refine Oks.consuming ?_
  rintro l rfl
  refine singleQuote_oks ?_
  intro n1 c1 hs1
  refine Oks.weaken ?_ hs1 (fun a h => h)
  have hok1 := hok.tail.suffix hs1
  refine Oks.consumeVal ?_
  rintro v l' rfl
  have hv : escaped s (doubleBackslashes v) = 0 := escaped_zero fun c hc => hok1.2 v (by simp) c (doubleBackslashes_mem hc)
  apply Oks.push
  refine Oks.weaken (n := l') ?_ (List.suffix_cons _ _) (fun a h => h)
  refine singleQuote_oks ?_
  intro n3 c3 hs3
  exact Oks.ok hv hs3

theorem literalString_oks {s f n ctx} (hok : Good s n) : Oks (fun v => escaped s v ≤ f) n (consumeLiteralString f n ctx) := by
  unfold consumeLiteralString
  refine Oks.consuming ?_
  rintro l rfl
  refine Oks.peek ?_
  rintro x l' rfl
  refine Oks.nodename ?_
  intro nm
  refine Oks.ite (fun _ => ?_) (fun _ => ?_)
  · exact (literalNoEsc_oks hok.tail).weaken (List.suffix_refl _) (fun _ h => by omega)
  refine Oks.ite (fun _ => ?_) (fun _ => trivial)
  exact (literalEsc_oks hok.tail).weaken (List.suffix_refl _) (fun _ h => by omega)

theorem literalExpr_oks {s f n ctx} (hok : Good s n) : Oks (fun e => spread s e ≤ f) n (consumeLiteralExpr f n ctx) := by
  unfold consumeLiteralExpr
  refine Oks.bind (literalString_oks hok) ?_
  intro v n' c hv hs
  exact Oks.ok hv hs

theorem dot_oks {s n ctx} : Oks (fun e => spread s e = 0) n (consumeDot n ctx) := by
  unfold consumeDot
  refine Oks.consuming ?_
  rintro l rfl
  refine Oks.consumeVal ?_
  rintro v l' rfl
  exact Oks.ok rfl (List.suffix_cons _ _)

theorem ruleRef_oks {s f n ctx} (hok : Good s n) : Oks (fun e => spread s e ≤ f) n (consumeRuleRef f n ctx) := by
  unfold consumeRuleRef
  apply Oks.push
  refine Oks.bind (ruleName_oks hok) ?_
  intro v n' c hv hs
  exact Oks.ok hv hs

theorem error_oks {s f n ctx} (hok : Good s n) : Oks (fun e => spread s e ≤ f) n (consumeError f n ctx) := by
  unfold consumeError
  refine Oks.bind (Q := fun v => escaped s v ≤ f) ?_ (fun v n' c hv hs => Oks.ok hv hs)
  refine Oks.consuming ?_
  rintro l rfl
  refine Oks.thisValue ?_
  rintro l1 rfl
  refine Oks.thisValue ?_
  rintro l2 rfl
  refine Oks.weaken (n := l2) ?_ ((List.suffix_cons _ _).trans (List.suffix_cons _ _)) (fun a h => h)
  refine Oks.bind (literalString_oks hok.tail.tail.tail) ?_
  intro v n' c hv hs
  refine Oks.thisValue ?_
  rintro l3 rfl
  exact Oks.ok hv ((List.suffix_cons _ _).trans hs)

theorem mbetween_oks : ∀ f acc n ctx,
    Oks (fun rs : List (Char × Char) => rs.length + 1 ≤ acc.length + f) n (recConsumeMbetween f acc n ctx) := by
  intro f
  induction f with
  | zero => intro acc n ctx; trivial
  | succ f ih =>
    intro acc n ctx
    rw [recConsumeMbetween]
    refine Oks.peek ?_
    rintro x l rfl
    have stop : Oks (fun rs : List (Char × Char) => rs.length + 1 ≤ acc.length + (f + 1)) (x :: l) (.ok (acc, x :: l, ctx)) :=
      Oks.ok (by omega) (List.suffix_refl _)
    have go : Oks (fun rs : List (Char × Char) => rs.length + 1 ≤ acc.length + (f + 1)) (x :: l) (do
        let (ft, nodes, ctx) ← consumeMbetween (x :: l) ctx
        recConsumeMbetween f (acc ++ [ft]) nodes ctx) := by
      refine Oks.bind (Q := Any) ?_ ?_
      · unfold consumeMbetween
        refine Oks.consuming ?_
        rintro l' h'
        cases h'
        refine Oks.consumeVal ?_
        rintro v l'' rfl
        dsimp only
        split
        · trivial
        · split
          · trivial
          · split
            · trivial
            · exact Oks.ok trivial (List.suffix_cons _ _)
      · intro p n' c _ hs
        refine (ih _ n' c).weaken hs ?_
        intro a ha
        simp at ha
        omega
    cases x with
    | beginRule r => exact Oks.ite (fun _ => go) (fun _ => stop)
    | endRule r => exact Oks.ite (fun _ => go) (fun _ => stop)
    | _ => exact stop

theorem match_oks {s f n ctx} : Oks (fun e => spread s e ≤ f) n (consumeMatch f n ctx) := by
  unfold consumeMatch
  refine Oks.consuming ?_
  rintro l rfl
  refine Oks.thisValue ?_
  rintro l1 rfl
  refine Oks.weaken (n := l1) ?_ (List.suffix_cons _ _) (fun _ h => h)
  refine Oks.peek ?_
  rintro x l2 rfl
  refine Oks.nodename ?_
  intro nm
  refine Oks.bind (Q := Any) ?_ ?_
  · refine Oks.ite (fun _ => ?_) (fun _ => Oks.ok trivial (List.suffix_refl _))
    refine Oks.bind (Q := Any) ?_ (fun a n' c _ hs => Oks.ok trivial hs)
    unfold consumeMchars
    refine Oks.consuming ?_
    rintro l' h'
    cases h'
    refine Oks.consumeVal ?_
    rintro v l'' rfl
    exact Oks.ok trivial (List.suffix_cons _ _)
  · intro o n' c _ hs
    refine Oks.weaken (n := n') ?_ hs (fun _ h => h)
    refine Oks.bind (mbetween_oks f [] n' c) ?_
    intro rs n2 c2 hrs hs2
    refine Oks.weaken (n := n2) ?_ hs2 (fun _ h => h)
    have done : ∀ e, spread s e ≤ f → Oks (fun e => spread s e ≤ f) n2 (do
        let expr ← (.ok e : Out PegError Expr)
        let nodes ← liftA (Flat.consumeThisValue c!"]" n2)
        .ok (expr, nodes, c2)) := by
      intro e he
      show Oks _ n2 (liftA (Flat.consumeThisValue c!"]" n2) >>= _)
      refine Oks.thisValue ?_
      rintro l3 rfl
      exact Oks.ok he (List.suffix_cons _ _)
    simp only [List.length_nil, Nat.zero_add] at hrs
    dsimp only
    split
    · exact done _ (by simp [spread])
    · exact done _ (by rw [spread]; omega)
    · exact done _ (by rw [spread]; omega)
    · trivial

/-! ### Expressions -/

/-- the pieces collected so far, as a list -/
def EOV.list : EOV → List Expr
  | .none => []
  | .expr e => [e]
  | .vexpr v => v

theorem list_push (o : EOV) (e : Expr) : (o.ipush e).list = o.list ++ [e] := by
  cases o <;> rfl

/-- the pieces added lie at most that far -/
def Adds (s : Str) (o : EOV) (k f : Nat) (o' : EOV) : Prop := ∃ l, o'.list = o.list ++ l ∧ spreads s l + k ≤ f

theorem Adds.one {s o e k f} (h : spread s e + 1 + k ≤ f) : Adds s o k f (o.ipush e) :=
  ⟨[e], list_push o e, by simpa [spreads] using h⟩

theorem Adds.more {s o e k f o'} (h : spread s e + 1 + k ≤ f + 1) (hr : Adds s (o.ipush e) k f o') : Adds s o k (f + 1) o' := by
  obtain ⟨l, h1, h2⟩ := hr
  refine ⟨e :: l, by rw [h1, list_push, List.append_assoc]; rfl, ?_⟩
  rw [spreads]
  omega

theorem repetition_oks {s e v n base ctx k} (he : spread s e ≤ k) (hs : n <:+ base) :
    Oks (fun e => spread s e ≤ k) base (processRepetitionIndicator e v >>= fun e => .ok (e, n, ctx)) := by
  unfold processRepetitionIndicator
  split
  · exact Oks.ok he hs
  split
  · exact Oks.ok he hs
  split
  · exact Oks.ok he hs
  · trivial

theorem expr_oks (s : Str) : ∀ f,
    (∀ n ctx, Good s n → Oks (fun e => spread s e + 3 ≤ f) n (consumePegExpr f n ctx)) ∧
    (∀ n ctx, Good s n → Oks (fun e => spread s e + 2 ≤ f) n (consumeOr f n ctx)) ∧
    (∀ o n ctx, Good s n → Oks (Adds s o 1 f) n (recConsumeOr f o n ctx)) ∧
    (∀ n ctx, Good s n → Oks (fun e => spread s e + 1 ≤ f) n (consumeAnd f n ctx)) ∧
    (∀ o n ctx, Good s n → Oks (Adds s o 0 f) n (recConsumeAnd f o n ctx)) ∧
    (∀ n ctx, Good s n → Oks (fun e => spread s e + 1 ≤ f) n (consumeRepOrNeg f n ctx)) ∧
    (∀ n ctx, Good s n → Oks (fun e => spread s e + 1 ≤ f) n (consumeAtomOrPar f n ctx)) ∧
    (∀ n ctx, Good s n → Oks (fun e => spread s e + 1 ≤ f) n (consumeAtom f n ctx)) ∧
    (∀ n ctx, Good s n → Oks (fun e => spread s e + 1 ≤ f) n (consumeParenth f n ctx)) := by
  intro f
  induction f with
  | zero => refine ⟨?_, ?_, ?_, ?_, ?_, ?_, ?_, ?_, ?_⟩ <;> intros <;> trivial
  | succ f ih =>
    obtain ⟨iExpr, iOr, iRecOr, iAnd, iRecAnd, iRep, iAtomPar, iAtom, iPar⟩ := ih
    refine ⟨?_, ?_, ?_, ?_, ?_, ?_, ?_, ?_, ?_⟩
    · intro n ctx hok
      rw [consumePegExpr]
      refine Oks.consuming ?_
      rintro l rfl
      exact (iOr l ctx hok.tail).weaken (List.suffix_refl _) (fun _ h => by omega)
    · intro n ctx hok
      rw [consumeOr]
      apply Oks.push
      refine Oks.bind (iRecOr .none n ctx hok) ?_
      rintro o n' c ⟨l, h1, h2⟩ hs
      cases o with
      | none => trivial
      | expr e =>
        obtain rfl : [e] = l := h1
        rw [spreads] at h2
        exact Oks.ok (by omega) hs
      | vexpr v =>
        obtain rfl : v = l := h1
        exact Oks.ok (by rw [spread]; omega) hs
    · intro o n ctx hok
      rw [recConsumeOr]
      refine Oks.consuming ?_
      rintro l rfl
      refine Oks.bind (iAnd l ctx hok.tail) ?_
      intro e n' c he hs
      refine Oks.weaken (n := n') ?_ hs (fun _ h => h)
      have hok1 := hok.tail.suffix hs
      refine Oks.peek ?_
      rintro x l' rfl
      cases x with
      | val v =>
        refine Oks.thisValue ?_
        intro l'' h''
        cases h''
        exact (iRecOr _ l' c hok1.tail).weaken (List.suffix_cons _ _) (fun _ h => Adds.more (by omega) h)
      | _ => exact Oks.ok (Adds.one (by omega)) (List.suffix_refl _)
    · intro n ctx hok
      rw [consumeAnd]
      refine Oks.bind (iRecAnd .none n ctx hok) ?_
      rintro o n' c ⟨l, h1, h2⟩ hs
      cases o with
      | none => trivial
      | expr e =>
        obtain rfl : [e] = l := h1
        rw [spreads] at h2
        exact Oks.ok (by omega) hs
      | vexpr v =>
        obtain rfl : v = l := h1
        exact Oks.ok (by rw [spread]; omega) hs
    · intro o n ctx hok
      rw [recConsumeAnd]
      refine Oks.consuming ?_
      rintro l rfl
      refine Oks.peek ?_
      rintro x l1 rfl
      refine Oks.nodename ?_
      intro nm
      refine Oks.ite (fun _ => ?_) (fun _ => ?_)
      · refine Oks.bind (error_oks hok.tail) ?_
        intro e n' c he hs
        exact Oks.ok (Adds.one (by omega)) hs
      · refine Oks.bind (iRep _ ctx hok.tail) ?_
        intro e n' c he hs
        refine Oks.weaken (n := n') ?_ hs (fun _ h => h)
        have hok1 := hok.tail.suffix hs
        refine Oks.peek ?_
        rintro x l' rfl
        cases x with
        | beginRule m =>
          refine Oks.ite (fun _ => ?_) (fun _ => Oks.ok (Adds.one (by omega)) (List.suffix_refl _))
          exact (iRecAnd _ _ c hok1).weaken (List.suffix_refl _) (fun _ h => Adds.more (by omega) h)
        | _ => exact Oks.ok (Adds.one (by omega)) (List.suffix_refl _)
    · intro n ctx hok
      rw [consumeRepOrNeg]
      refine Oks.consuming ?_
      rintro l rfl
      refine Oks.peek ?_
      rintro x l1 rfl
      have other : Oks (fun e => spread s e + 1 ≤ f + 1) (x :: l1) (do
          let (expr, nodes, ctx) ← consumeAtomOrPar f (x :: l1) ctx
          let nextNode ← liftA (Flat.peekFirstNode nodes)
          match nextNode with
          | .val _ => do
            let (sep, nodes) ← liftA (Flat.consumeVal nodes)
            let e ← processRepetitionIndicator expr sep
            .ok (e, nodes, ctx)
          | _ => .ok (expr, nodes, ctx)) := by
        refine Oks.bind (iAtomPar _ ctx hok.tail) ?_
        intro e n' c he hs
        refine Oks.weaken (n := n') ?_ hs (fun _ h => h)
        refine Oks.peek ?_
        rintro y l' rfl
        cases y with
        | val w =>
          refine Oks.consumeVal ?_
          rintro w' l'' h''
          cases h''
          exact (repetition_oks (s := s) (k := f) (by omega) (List.suffix_cons _ _)).weaken (List.suffix_refl _) (fun _ h => by omega)
        | _ => exact Oks.ok (by omega) (List.suffix_refl _)
      cases x with
      | val v =>
        refine Oks.ite (fun _ => ?_) (fun _ => trivial)
        refine Oks.thisValue ?_
        intro l2 h2
        cases h2
        refine Oks.weaken (n := l1) ?_ (List.suffix_cons _ _) (fun _ h => h)
        refine Oks.bind (iAtomPar l1 ctx hok.tail.tail) ?_
        intro e n' c he hs
        exact Oks.ok (by rw [spread]; omega) hs
      | _ => exact other
    · intro n ctx hok
      rw [consumeAtomOrPar]
      refine Oks.consuming ?_
      rintro l rfl
      refine Oks.peek ?_
      rintro x l1 rfl
      refine Oks.nodename ?_
      intro nm
      apply Oks.push
      refine Oks.ite (fun _ => (iAtom _ ctx hok.tail).weaken (List.suffix_refl _) (fun _ h => by omega)) (fun _ => ?_)
      exact Oks.ite (fun _ => (iPar _ ctx hok.tail).weaken (List.suffix_refl _) (fun _ h => by omega)) (fun _ => trivial)
    · intro n ctx hok
      rw [consumeAtom]
      refine Oks.consuming ?_
      rintro l rfl
      refine Oks.peek ?_
      rintro x l1 rfl
      refine Oks.nodename ?_
      intro nm
      apply Oks.push
      refine Oks.ite (fun _ => (literalExpr_oks hok.tail).weaken (List.suffix_refl _) (fun _ h => by omega)) (fun _ => ?_)
      refine Oks.ite (fun _ => (ruleRef_oks hok.tail).weaken (List.suffix_refl _) (fun _ h => by omega)) (fun _ => ?_)
      refine Oks.ite (fun _ => (dot_oks (s := s)).weaken (List.suffix_refl _) (fun _ h => by omega)) (fun _ => ?_)
      exact Oks.ite (fun _ => (match_oks (s := s)).weaken (List.suffix_refl _) (fun _ h => by omega)) (fun _ => trivial)
    · intro n ctx hok
      rw [consumeParenth]
      refine Oks.consuming ?_
      rintro l rfl
      refine Oks.thisValue ?_
      rintro l1 rfl
      refine Oks.weaken (n := l1) ?_ (List.suffix_cons _ _) (fun _ h => h)
      refine Oks.bind (iExpr l1 ctx hok.tail.tail) ?_
      intro e n' c he hs
      refine Oks.thisValue ?_
      rintro l3 rfl
      exact Oks.ok (by omega) ((List.suffix_cons _ _).trans hs)

/-! ### Rules, modules, grammars -/

theorem rule_oks {s f n ctx} (hok : Good s n) :
    Oks (fun p => p.1.count '.' ≤ f ∧ spread s p.2 + 3 ≤ f) n (consumeRule f n ctx) := by
  unfold consumeRule
  refine Oks.consuming ?_
  rintro l rfl
  refine Oks.bind (ruleName_oks hok.tail) ?_
  intro nm n1 c1 hnm hs1
  have hok1 := hok.tail.suffix hs1
  refine Oks.weaken (n := n1) ?_ hs1 (fun _ h => h)
  refine Oks.thisValue ?_
  rintro l2 rfl
  refine Oks.weaken (n := l2) ?_ (List.suffix_cons _ _) (fun _ h => h)
  refine Oks.bind ((expr_oks s f).1 l2 c1 hok1.tail) ?_
  intro e n' c he hs
  exact Oks.ok ⟨hnm, he⟩ hs

/-- each rule has been read in less than `k` calls -/
def Within (s : Str) (k : Nat) (R : SetOfRules) : Prop := ∀ ne ∈ R.entries, ne.1.count '.' + 1 ≤ k ∧ spread s ne.2 + 4 ≤ k

theorem Within.mono {s k j R} (h : Within s k R) (hk : k ≤ j) : Within s j R := fun ne hne => by
  have := h ne hne
  omega

theorem grammar_oks (s : Str) : ∀ f,
    (∀ n ctx, Good s n → Oks (Within s f) n (consumeGrammar f n ctx)) ∧
    (∀ k R n ctx, Good s n → f ≤ k → Within s k R → Oks (Within s k) n (recConsumeRulesOrModules f R n ctx)) ∧
    (∀ n ctx, Good s n → Oks (Within s f) n (consumeModule f n ctx)) := by
  intro f
  induction f with
  | zero => refine ⟨?_, ?_, ?_⟩ <;> intros <;> trivial
  | succ f ih =>
    obtain ⟨iGr, iRec, iMod⟩ := ih
    refine ⟨?_, ?_, ?_⟩
    · intro n ctx hok
      rw [consumeGrammar]
      refine Oks.consuming ?_
      rintro l rfl
      exact (iRec f _ l ctx hok.tail (Nat.le_refl _) (by intro ne h; cases h)).weaken (List.suffix_refl _) (fun _ h => h.mono (by omega))
    · intro k R n ctx hok hk hR
      rw [recConsumeRulesOrModules]
      refine Oks.peek ?_
      rintro x l rfl
      cases x with
      | beginRule nm =>
        refine Oks.ite (fun _ => ?_) (fun _ => ?_)
        · refine Oks.bind (rule_oks hok) ?_
          rintro ⟨m, e⟩ n' c ⟨hm, he⟩ hs
          refine (iRec k _ n' c (hok.suffix hs) (by omega) ?_).weaken hs (fun _ h => h)
          intro ne hne
          rcases mem_insertEntry hne with rfl | hne
          · exact ⟨by simp only at hm ⊢; omega, by simp only at he ⊢; omega⟩
          · exact hR ne hne
        · refine Oks.ite (fun _ => ?_) (fun _ => trivial)
          refine Oks.bind (iMod _ ctx hok) ?_
          intro S n' c hS hs
          refine (iRec k _ n' c (hok.suffix hs) (by omega) ?_).weaken hs (fun _ h => h)
          intro ne hne
          rcases mem_foldl_insert hne with hne | hne
          · rcases List.mem_append.mp hne with hne | hne
            · exact hS.mono (by omega) ne hne
            · exact hR ne hne
          · cases hne
      | _ => exact Oks.ok hR (List.suffix_refl _)
    · intro n ctx hok
      rw [consumeModule]
      refine Oks.consuming ?_
      rintro l rfl
      refine Oks.bind (Q := Any) ?_ ?_
      · unfold consumeModName
        refine Oks.consuming ?_
        rintro l' rfl
        exact Oks.bind (symbol_oks hok.tail.tail) (fun a n' c _ hs => Oks.ok trivial hs)
      intro nm n1 c1 _ hs1
      have hok1 := hok.tail.suffix hs1
      refine Oks.weaken (n := n1) ?_ hs1 (fun _ h => h)
      refine Oks.thisValue ?_
      rintro l2 rfl
      refine Oks.weaken (n := l2) ?_ (List.suffix_cons _ _) (fun _ h => h)
      refine Oks.bind (iGr l2 _ hok1.tail) ?_
      intro S n' c hS hs
      refine Oks.thisValue ?_
      rintro l3 rfl
      unfold Context.removeModule
      cases c.insideMods.getLast? with
      | none => trivial
      | some _ => exact Oks.ok (hS.mono (by omega)) ((List.suffix_cons _ _).trans hs)

theorem insertEntry_length (l : List (Str × Expr)) (kv : Str × Expr) : (SetOfRules.insertEntry l kv).length ≤ l.length + 1 := by
  simpa [SetOfRules.insertEntry] using List.length_filter_le _ l

/-- the number of rules, where there are no modules -/
theorem rules_count {s : Str} : ∀ f R n ctx, Good s n → FNode.beginRule c!"module" ∉ n →
    Oks (fun R' : SetOfRules => R'.entries.length + 1 ≤ R.entries.length + f) n (recConsumeRulesOrModules f R n ctx) := by
  intro f
  induction f with
  | zero => intros; trivial
  | succ f ih =>
    intro R n ctx hok hm
    rw [recConsumeRulesOrModules]
    refine Oks.peek ?_
    rintro x l rfl
    cases x with
    | beginRule nm =>
      refine Oks.ite (fun _ => ?_) (fun _ => ?_)
      · refine Oks.bind (rule_oks hok) ?_
        rintro ⟨m, e⟩ n' c - hs
        refine (ih _ n' c (hok.suffix hs) (fun h => hm (hs.subset h))).weaken hs ?_
        intro R' h
        have : (R.add m e).entries.length ≤ R.entries.length + 1 := insertEntry_length R.entries (m, e)
        omega
      · refine Oks.ite (fun h => ?_) (fun _ => trivial)
        obtain rfl : nm = c!"module" := by simpa using h
        exact absurd (by simp) hm
    | _ => exact Oks.ok (by omega) (List.suffix_refl _)

/-- what holds of the rules that are returned -/
theorem main_oks {s f n ctx} (hok : Good s n) :
    Oks (fun R => Within s f R ∧ (FNode.beginRule c!"module" ∉ n → R.entries.length + 2 ≤ f)) n (consumeMain f n ctx) := by
  unfold consumeMain
  refine Oks.consuming ?_
  rintro l rfl
  cases f with
  | zero => trivial
  | succ f =>
    have h1 := (grammar_oks s (f + 1)).1 l ctx hok.tail
    rw [consumeGrammar] at h1 ⊢
    have h2 : Oks (fun R => FNode.beginRule c!"module" ∉ l → R.entries.length + 2 ≤ f + 1) l (consumingRule c!"grammar" l ctx fun nodes ctx =>
        recConsumeRulesOrModules f SetOfRules.empty nodes ctx) := by
      refine Oks.consuming ?_
      rintro l' rfl
      by_cases hm : FNode.beginRule c!"module" ∈ FNode.beginRule c!"grammar" :: l'
      · exact ((grammar_oks s f).2.1 f _ l' ctx hok.tail.tail (Nat.le_refl _) (by intro ne h; cases h)).weaken (List.suffix_refl _)
          (fun _ _ h => absurd hm h)
      · refine (rules_count f SetOfRules.empty l' ctx hok.tail.tail (fun h => hm (List.mem_cons_of_mem _ h))).weaken (List.suffix_refl _) ?_
        intro R h _
        simp [SetOfRules.empty] at h
        omega
    revert h1 h2
    generalize consumingRule c!"grammar" l ctx _ = r
    intro h1 h2
    match r with
    | .ok (R, n', c) =>
      refine ⟨⟨h1.1, fun h => h2.1 fun hm => h (List.mem_cons_of_mem _ hm)⟩, h1.2⟩
    | .err _ => trivial
    | .panic => trivial
    | .diverge => trivial

end DP.Peg

namespace DP
open Spec Peg

/-! ### The nodes of a flat tree -/

/-- where a node of the flat list comes from -/
def Stems (ns : List Node) : FNode → Prop
  | .val v => ∀ c ∈ v, ∃ u, (∃ t ∈ ns, Under t (.val u)) ∧ c ∈ u
  | .beginRule m => ∃ t ∈ ns, ∃ ds, Under t (.rule m ds)
  | _ => True

theorem Stems.mono {a b : List Node} (h : ∀ t ∈ a, t ∈ b) : ∀ {x}, Stems a x → Stems b x
  | .val v, hx => fun c hc => by
    obtain ⟨u, ⟨t, ht, hu⟩, hcu⟩ := hx c hc
    exact ⟨u, ⟨t, h t ht, hu⟩, hcu⟩
  | .beginRule m, ⟨t, ht, hd⟩ => ⟨t, h t ht, hd⟩
  | .endRule _, _ => trivial
  | .eof, _ => trivial

theorem Stems.inside {n : Str} {cs : List Node} : ∀ {x}, Stems cs x → Stems [.rule n cs] x
  | .val v, hx => fun c hc => by
    obtain ⟨u, ⟨t, ht, hu⟩, hcu⟩ := hx c hc
    exact ⟨u, ⟨_, List.mem_singleton_self _, .child ht hu⟩, hcu⟩
  | .beginRule m, ⟨t, ht, ds, hd⟩ => ⟨_, List.mem_singleton_self _, ds, .child ht hd⟩
  | .endRule _, _ => trivial
  | .eof, _ => trivial

theorem stems_rule {n : Str} {cs : List Node} (h : ∀ x ∈ flatList cs, Stems cs x) : ∀ x ∈ flatRule n cs, Stems [.rule n cs] x := by
  intro x hx
  unfold flatRule at hx
  split at hx
  · cases hx
  · simp only [List.cons_append, List.mem_cons, List.mem_append, List.not_mem_nil, or_false] at hx
    rcases hx with rfl | hx | rfl
    · exact ⟨_, by simp, cs, .refl _⟩
    · exact (h x hx).inside
    · trivial

theorem flatList_stems : ∀ (k : Nat) (ns : List Node), ns.length ≤ k →
    (∀ n cs, Node.rule n cs ∈ ns → ∀ x ∈ flatList cs, Stems cs x) → ∀ x ∈ flatList ns, Stems ns x := by
  intro k
  induction k with
  | zero =>
    intro ns hk _ x hx
    have : ns = [] := by simpa using hk
    rw [this, flatList_nil] at hx
    cases hx
  | succ k ih =>
    intro ns hk hr x hx
    match ns with
    | [] => rw [flatList_nil] at hx; cases hx
    | .rule n cs :: rest =>
      rw [flatList_rule] at hx
      rcases List.mem_append.1 hx with hx | hx
      · exact (stems_rule (hr n cs (by simp)) x hx).mono (by simp)
      · exact (ih rest (by simp at hk; omega) (fun n cs h => hr n cs (by simp [h])) x hx).mono (by simp +contextual)
    | .eof :: rest =>
      rw [flatList_eof] at hx
      exact (ih rest (by simp at hk; omega) (fun n cs h => hr n cs (by simp [h])) x hx).mono (by simp +contextual)
    | .val v :: .val w :: rest =>
      rw [flatList_val_val] at hx
      have h1 := ih (.val (v ++ w) :: rest) (by simp at hk ⊢; omega) (fun n cs h => hr n cs (by simpa using h)) x hx
      cases x with
      | val y =>
        intro c hc
        obtain ⟨u, ⟨t, ht, hu⟩, hcu⟩ := h1 c hc
        rcases List.mem_cons.1 ht with rfl | ht
        · cases hu
          rcases List.mem_append.1 hcu with hcu | hcu
          · exact ⟨v, ⟨_, by simp, .refl _⟩, hcu⟩
          · exact ⟨w, ⟨_, by simp, .refl _⟩, hcu⟩
        · exact ⟨u, ⟨t, by simp [ht], hu⟩, hcu⟩
      | beginRule m =>
        obtain ⟨t, ht, ds, hd⟩ := h1
        rcases List.mem_cons.1 ht with rfl | ht
        · cases hd
        · exact ⟨t, by simp [ht], ds, hd⟩
      | _ => trivial
    | [.val v] =>
      rw [flatList_val (by simp), flatList_nil] at hx
      obtain rfl : x = .val v := by simpa using hx
      exact fun c hc => ⟨v, ⟨_, by simp, .refl _⟩, hc⟩
    | .val v :: .rule n cs :: rest =>
      rw [flatList_val (by simp)] at hx
      rcases List.mem_cons.1 hx with rfl | hx
      · exact fun c hc => ⟨v, ⟨_, List.mem_cons_self, .refl _⟩, hc⟩
      · exact (ih _ (by simp at hk ⊢; omega) (fun n cs h => hr n cs (by simp at h ⊢; tauto)) x hx).mono (fun t ht => List.mem_cons_of_mem _ ht)
    | .val v :: .eof :: rest =>
      rw [flatList_val (by simp)] at hx
      rcases List.mem_cons.1 hx with rfl | hx
      · exact fun c hc => ⟨v, ⟨_, List.mem_cons_self, .refl _⟩, hc⟩
      · exact (ih _ (by simp at hk ⊢; omega) (fun n cs h => hr n cs (by simp at h ⊢; tauto)) x hx).mono (fun t ht => List.mem_cons_of_mem _ ht)

mutual
theorem node_stems : ∀ t : Node, ∀ n cs, t = .rule n cs → ∀ x ∈ flatList cs, Stems cs x
  | .rule m ds, n, cs, e => by
    cases e
    exact flatList_stems _ ds (Nat.le_refl _) (nodes_stems ds)
  | .val _, _, _, e => by cases e
  | .eof, _, _, e => by cases e
theorem nodes_stems : ∀ ts : List Node, ∀ n cs, Node.rule n cs ∈ ts → ∀ x ∈ flatList cs, Stems cs x
  | [], _, _, hm => by cases hm
  | t :: ts, n, cs, hm => by
    rcases List.mem_cons.mp hm with hm | hm
    · exact node_stems t n cs hm.symm
    · exact nodes_stems ts n cs hm
end

/-- the flat tree of an accepted text has the characters of the text only, and modules only if there is a brace -/
theorem peg_good {s t} (h : parse s PegRules.parsePeg = .ok t) :
    Peg.Good s (pegFlat t) ∧ ('{' ∉ s → FNode.beginRule c!"module" ∉ pegFlat t) := by
  obtain ⟨hp, ha, ht, cs, rfl⟩ := peg_parse_ok h
  have hmain : pegFlat (.rule c!"main" cs) = flatRule c!"main" cs := by
    rw [pegFlat_rule, flatRule, if_neg (by decide)]
  have hst := stems_rule (n := c!"main") (node_stems (.rule c!"main" cs) _ cs rfl)
  rw [← hmain] at hst
  refine ⟨⟨peg_flatOK h, ?_⟩, ?_⟩
  · intro v hv c hc
    obtain ⟨u, ⟨t, htm, hu⟩, hcu⟩ := hst _ hv c hc
    obtain rfl : t = .rule c!"main" cs := by simpa using htm
    rw [← ht, text]
    exact List.mem_flatten.2 ⟨u, under_val_leaf hu u rfl, hcu⟩
  · intro hb hm
    obtain ⟨t, htm, ds, hu⟩ := hst _ hm
    obtain rfl : t = .rule c!"main" cs := by simpa using htm
    obtain ⟨e', s', r', hg, hs, hd⟩ := peg_under hp rfl _ (by simp) _ ds hu
    rw [gp_module] at hg
    cases hg
    obtain ⟨q1, _, _, h1, hd, _⟩ := inv_and hd
    obtain ⟨q2, _, _, h2, hd, _⟩ := inv_and hd
    obtain ⟨q3, _, _, h3, hd, _⟩ := inv_and hd
    obtain ⟨q4, _, _, h4, hd, _⟩ := inv_and hd
    have hq := (inv_lit h4).1
    refine hb (hs.subset ((peg_suffix h1 rfl).subset ((peg_suffix h2 rfl).subset ((peg_suffix h3 rfl).subset ?_))))
    rw [hq]
    simp

/-! ### The length of the flat tree -/

theorem flatList_length : ∀ (k : Nat) (ns : List Node), ns.length ≤ k →
    (∀ n cs, Node.rule n cs ∈ ns → (flatList cs).length ≤ 2 * forestSize cs) → (flatList ns).length ≤ 2 * forestSize ns := by
  intro k
  induction k with
  | zero =>
    intro ns hk _
    have : ns = [] := by simpa using hk
    rw [this, flatList_nil]
    simp
  | succ k ih =>
    intro ns hk hr
    match ns with
    | [] => rw [flatList_nil]; simp
    | .rule n cs :: rest =>
      rw [flatList_rule, List.length_append, forestSize, treeSize]
      have h1 := hr n cs (by simp)
      have h2 := ih rest (by simp at hk; omega) (fun n cs h => hr n cs (by simp [h]))
      have h3 : (flatRule n cs).length ≤ (flatList cs).length + 2 := by
        unfold flatRule
        split <;> simp
      omega
    | .eof :: rest =>
      rw [flatList_eof, forestSize]
      have h2 := ih rest (by simp at hk; omega) (fun n cs h => hr n cs (by simp [h]))
      omega
    | .val v :: .val w :: rest =>
      rw [flatList_val_val]
      have h1 := ih (.val (v ++ w) :: rest) (by simp at hk ⊢; omega) (fun n cs h => hr n cs (by simpa using h))
      simp only [forestSize, treeSize] at h1 ⊢
      omega
    | [.val v] =>
      rw [flatList_val (by simp), flatList_nil]
      simp [forestSize, treeSize]
    | .val v :: .rule n cs :: rest =>
      rw [flatList_val (by simp), List.length_cons, forestSize, treeSize]
      have := ih (.rule n cs :: rest) (by simp at hk ⊢; omega) (fun n cs h => hr n cs (by simp at h ⊢; tauto))
      omega
    | .val v :: .eof :: rest =>
      rw [flatList_val (by simp), List.length_cons, forestSize, treeSize]
      have := ih (.eof :: rest) (by simp at hk ⊢; omega) (fun n cs h => hr n cs (by simp at h ⊢; tauto))
      omega

mutual
theorem node_length : ∀ t : Node, ∀ n cs, t = .rule n cs → (flatList cs).length ≤ 2 * forestSize cs
  | .rule m ds, n, cs, e => by
    cases e
    exact flatList_length _ ds (Nat.le_refl _) (nodes_length ds)
  | .val _, _, _, e => by cases e
  | .eof, _, _, e => by cases e
theorem nodes_length : ∀ ts : List Node, ∀ n cs, Node.rule n cs ∈ ts → (flatList cs).length ≤ 2 * forestSize cs
  | [], _, _, hm => by cases hm
  | t :: ts, n, cs, hm => by
    rcases List.mem_cons.mp hm with hm | hm
    · exact node_length t n cs hm.symm
    · exact nodes_length ts n cs hm
end

theorem pegFlat_length (n : Str) (cs : List Node) : (pegFlat (.rule n cs)).length ≤ 2 * treeSize (.rule n cs) := by
  have := node_length (.rule n cs) n cs rfl
  rw [pegFlat_rule, treeSize]
  simp
  omega

end DP
