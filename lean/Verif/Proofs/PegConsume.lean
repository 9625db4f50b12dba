/-
The consumers of the PEG front end return, do not panic, consume what they should, and build expressions of
the PEG notation.
-/
import Verif.Proofs.PegFlatOK
import Verif.Props.Rules

namespace DP.Peg
open Spec

/-! ### The primitives on flat nodes -/

theorem this_ok (v : Str) (l : List FNode) : Flat.consumeThisValue v (.val v :: l) = .ok l := by
  show (if (v == v) = true then Except.ok l else Except.error _) = _
  rw [if_pos (by simp)]

theorem this_err {v w : Str} (h : v ≠ w) (l : List FNode) :
    Flat.consumeThisValue w (.val v :: l) =
      .error (astError c!"trying get first element from nodes on empty slice" none) := by
  show (if (v == w) = true then Except.ok l else Except.error _) = _
  rw [if_neg (by simpa using h)]

theorem start_ok (n : Str) (l : List FNode) : Flat.consumeNodeStartRuleName n (.beginRule n :: l) = .ok l := by
  show (if (n == n) = true then Except.ok l else Except.error _) = _
  rw [if_pos (by simp)]

theorem start_err {n name : Str} (h : n ≠ name) (l : List FNode) :
    Flat.consumeNodeStartRuleName name (.beginRule n :: l) =
      .error (astError (c!"expected " ++ name ++ c!" node, received " ++ n) none) := by
  show (if (n == name) = true then Except.ok l else Except.error _) = _
  rw [if_neg (by simpa using h)]

theorem end_ok (n : Str) (l : List FNode) : Flat.consumeNodeEndRuleName n (.endRule n :: l) = .ok l := by
  show (if (n == n) = true then Except.ok l else Except.error _) = _
  rw [if_pos (by simp)]

theorem end_err {n name : Str} (h : n ≠ name) (l : List FNode) :
    Flat.consumeNodeEndRuleName name (.endRule n :: l) =
      .error (astError (c!"expected " ++ name ++ c!" node, received " ++ n) none) := by
  show (if (n == name) = true then Except.ok l else Except.error _) = _
  rw [if_neg (by simpa using h)]

/-- not a parser error -/
def NotParser : PegError → Prop
  | .parser _ => False
  | _ => True

/-- Outcome of a consumer: an error (not of the parser), or a value satisfying `Q` and at least `k` nodes fewer. -/
def Ends {α : Type} (Q : α → Prop) (base : List FNode) (k : Nat) : Res α → Prop
  | .ok (a, n', _) => Q a ∧ n' <:+ base ∧ n'.length + k ≤ base.length
  | .err e => NotParser e
  | _ => False

section
variable {α β : Type} {Q : α → Prop} {Q' : β → Prop} {base n : List FNode} {j k : Nat}

theorem Ends.weaken {r : Res α} (h : Ends Q n k r) (hs : n <:+ base) (hl : n.length + j ≤ base.length)
    {m : Nat} (hm : m ≤ k + j) {Q2 : α → Prop} (hq : ∀ a, Q a → Q2 a) : Ends Q2 base m r := by
  match r with
  | .ok (a, n', _) => exact ⟨hq a h.1, h.2.1.trans hs, by have := h.2.2; omega⟩
  | .err _ => exact h
  | .panic => exact h.elim
  | .diverge => exact h.elim

theorem Ends.bind {r : Res α} {f : α × List FNode × Context → Res β} (h : Ends Q base k r)
    (hf : ∀ a n' c, Q a → n' <:+ base → n'.length + k ≤ base.length → Ends Q' base j (f (a, n', c))) :
    Ends Q' base j (r >>= f) := by
  match r with
  | .ok (a, n', c) => exact hf a n' c h.1 h.2.1 h.2.2
  | .err _ => exact h
  | .panic => exact h.elim
  | .diverge => exact h.elim

theorem Ends.push {d : Str} {r : Res α} (h : Ends Q base k r) : Ends Q base k (pushErr d r) := by
  match r with
  | .ok (a, n', c) => exact h
  | .err _ => trivial
  | .panic => exact h.elim
  | .diverge => exact h.elim

theorem Ends.ok {a : α} {c} (hq : Q a) (hs : n <:+ base) (hl : n.length + k ≤ base.length) :
    Ends Q base k (.ok (a, n, c)) := ⟨hq, hs, hl⟩

theorem Ends.peek {f : FNode → Res β} (hf : ∀ x l, n = x :: l → Ends Q' base j (f x)) :
    Ends Q' base j (liftA (Flat.peekFirstNode n) >>= f) := by
  cases n with
  | nil => trivial
  | cons x l => exact hf x l rfl

theorem Ends.consumeVal {f : Str × List FNode → Res β} (hf : ∀ v l, n = .val v :: l → Ends Q' base j (f (v, l))) :
    Ends Q' base j (liftA (Flat.consumeVal n) >>= f) := by
  cases n with
  | nil => trivial
  | cons x l =>
    cases x with
    | val v => exact hf v l rfl
    | _ => trivial

theorem Ends.thisValue {w : Str} {f : List FNode → Res β} (hf : ∀ l, n = .val w :: l → Ends Q' base j (f l)) :
    Ends Q' base j (liftA (Flat.consumeThisValue w n) >>= f) := by
  cases n with
  | nil => trivial
  | cons x l =>
    cases x with
    | val v =>
      by_cases h : v = w
      · subst h
        rw [this_ok]
        exact hf l rfl
      · rw [this_err h]
        trivial
    | _ => trivial

theorem Ends.nodename {x : FNode} {f : Str → Res β}
    (hf : ∀ nm, x = .beginRule nm ∨ x = .endRule nm → Ends Q' base j (f nm)) :
    Ends Q' base j (liftA (Flat.getNodename x) >>= f) := by
  cases x with
  | beginRule nm => exact hf nm (Or.inl rfl)
  | endRule nm => exact hf nm (Or.inr rfl)
  | _ => trivial

theorem Ends.ite {c : Prop} [Decidable c] {a b : Res α} (h1 : c → Ends Q base k a) (h2 : ¬ c → Ends Q base k b) :
    Ends Q base k (if c then a else b) := by
  split
  · exact h1 ‹_›
  · exact h2 ‹_›

/-- `consuming_rule`: the start and the end are consumed too -/
theorem Ends.consuming {name : Str} {ctx : Context} {f : List FNode → Context → Res α}
    (hf : ∀ l, base = .beginRule name :: l → Ends Q l k (f l ctx)) :
    Ends Q base (k + 2) (consumingRule name base ctx f) := by
  unfold consumingRule
  apply Ends.push
  cases base with
  | nil => trivial
  | cons x l =>
    cases x with
    | beginRule n =>
      by_cases h : n = name
      · subst h
        have hh := hf l rfl
        rw [start_ok]
        show Ends Q (.beginRule n :: l) (k + 2) (f l ctx >>= _)
        match hr : f l ctx with
        | .err _ => rw [hr] at hh; exact hh
        | .panic => rw [hr] at hh; exact hh.elim
        | .diverge => rw [hr] at hh; exact hh.elim
        | .ok (a, n', c) =>
          rw [hr] at hh
          obtain ⟨h1, h2, h3⟩ := hh
          show Ends Q (.beginRule n :: l) (k + 2) (liftA (Flat.consumeNodeEndRuleName n n') >>= _)
          cases n' with
          | nil => trivial
          | cons y l' =>
            cases y with
            | endRule m =>
              by_cases hm : m = n
              · subst hm
                rw [end_ok]
                refine Ends.ok h1 ?_ ?_
                · exact ((List.suffix_cons _ l').trans h2).trans (List.suffix_cons _ _)
                · simp at h3 ⊢; omega
              · rw [end_err hm]
                trivial
            | _ => trivial
      · rw [start_err h]
        trivial
    | _ => trivial

end

/-- any value -/
abbrev Any {α : Type} : α → Prop := fun _ => True

theorem suf_cons {x : FNode} {l n : List FNode} (h : n = x :: l) : l <:+ n := h ▸ List.suffix_cons x l

theorem headOK_of {n : List FNode} (h : FlatOK n) : HeadOK n := h n (List.suffix_refl n)

/-! ### Leaves -/

theorem symbol_ends {n ctx} (h : FlatOK n) : Ends ValidSymbol n 3 (consumeSymbol n ctx) := by
  unfold consumeSymbol
  refine Ends.consuming (k := 1) ?_
  rintro l rfl
  obtain ⟨v, q, hv, rfl⟩ := (headOK_of h).2.1 rfl
  refine Ends.consumeVal ?_
  rintro v' l' h'
  cases h'
  exact Ends.ok hv (List.suffix_cons _ _) (by simp)

theorem modName_ends {n ctx} (h : FlatOK n) : Ends ValidSymbol n 2 (consumeModName n ctx) := by
  unfold consumeModName
  refine Ends.consuming (k := 0) ?_
  rintro l rfl
  refine Ends.bind (symbol_ends (h.suffix (List.suffix_cons _ _))) ?_
  intro a n' c hq hs hl
  exact Ends.ok hq hs (by omega)

/-- what `rec_consume_dot_symbol` appends -/
inductive DotApp : Str → Str → Prop
  | refl (a) : DotApp a a
  | step {a y b} : ValidSymbol y → DotApp (a ++ c!"." ++ y) b → DotApp a b

theorem DotApp.tail {a b} (h : DotApp a b) : ∃ t, DottedTail t ∧ b = a ++ t := by
  induction h with
  | refl a => exact ⟨[], .nil, by simp⟩
  | @step a y b hy _ ih =>
    obtain ⟨t, ht, rfl⟩ := ih
    exact ⟨_, .cons hy ht, by simp⟩

theorem dotSymbol_ends : ∀ f acc n ctx, FlatOK n → n.length < f →
    Ends (DotApp acc) n 0 (recConsumeDotSymbol f acc n ctx) := by
  intro f
  induction f with
  | zero => intro acc n ctx _ h; omega
  | succ f ih =>
    intro acc n ctx hok hf
    rw [recConsumeDotSymbol]
    refine Ends.peek ?_
    rintro x l rfl
    have hok' : FlatOK l := hok.suffix (List.suffix_cons _ _)
    cases x with
    | val ch =>
      refine Ends.ite (fun _ => ?_) (fun _ => Ends.ok (.refl acc) (List.suffix_refl _) (by simp))
      refine Ends.consumeVal ?_
      rintro v l' h'
      cases h'
      refine Ends.weaken (base := .val ch :: l) (n := l) (j := 1) (k := 0) ?_ (List.suffix_cons _ _) (by simp) (by omega) (fun a h => h)
      refine Ends.bind (symbol_ends hok') ?_
      intro y n' c hy hs hl
      refine Ends.weaken (ih _ n' c (hok'.suffix hs) (by simp at hf; omega)) hs (j := 3) hl (by omega) ?_
      intro a ha
      exact .step hy ha
    | _ => exact Ends.ok (.refl acc) (List.suffix_refl _) (by simp)

theorem dotOrEmpty_ends {n ctx} : Ends (fun d => d = [] ∨ d = ['.']) n 0 (getDotOrEmpty n ctx) := by
  unfold getDotOrEmpty
  refine Ends.peek ?_
  rintro x l rfl
  cases x with
  | val ch =>
    refine Ends.ite (fun _ => ?_) (fun _ => Ends.ok (Or.inl rfl) (List.suffix_refl _) (by simp))
    refine Ends.thisValue ?_
    intro l' h'
    cases h'
    exact Ends.ok (Or.inr rfl) (List.suffix_cons _ _) (by simp)
  | _ => exact Ends.ok (Or.inl rfl) (List.suffix_refl _) (by simp)

theorem ruleName_ends {f n ctx} (hok : FlatOK n) (hf : n.length < f) :
    Ends ValidName n 5 (consumeRuleName f n ctx) := by
  unfold consumeRuleName
  refine Ends.consuming (k := 3) ?_
  rintro l rfl
  have hok' : FlatOK l := hok.suffix (List.suffix_cons _ _)
  refine Ends.bind dotOrEmpty_ends ?_
  intro d n1 c1 hd hs1 hl1
  refine Ends.weaken ?_ hs1 hl1 (Nat.le_refl _) (fun a h => h)
  refine Ends.bind (symbol_ends (hok'.suffix hs1)) ?_
  intro y n2 c2 hy hs2 hl2
  refine Ends.weaken (k := 0) ?_ hs2 hl2 (Nat.le_refl _) (fun a h => h)
  refine Ends.bind (dotSymbol_ends f [] n2 c2 ((hok'.suffix hs1).suffix hs2) (by simp at hf; omega)) ?_
  intro t n3 c3 ht hs3 hl3
  obtain ⟨t', ht', e⟩ := ht.tail
  exact Ends.ok ⟨d, y, t', hd, hy, ht', by rw [e]; rfl⟩ hs3 hl3

theorem consumeQuote_eq (n ctx) : consumeQuote n ctx =
    (consumingRule c!"_\"" n ctx (fun nodes ctx => do
      let nodes ← liftA (Flat.consumeThisValue c!"\"" nodes)
      .ok ((), nodes, ctx))) >>= fun x => .ok (x.2.1, x.2.2) := rfl

theorem consumeSingleQuote_eq (n ctx) : consumeSingleQuote n ctx =
    (consumingRule c!"_'" n ctx (fun nodes ctx => do
      let nodes ← liftA (Flat.consumeThisValue c!"'" nodes)
      .ok ((), nodes, ctx))) >>= fun x => .ok (x.2.1, x.2.2) := rfl

theorem assoc {ε α β γ : Type} (x : Out ε α) (f : α → Out ε β) (g : β → Out ε γ) :
    (x >>= f) >>= g = x >>= fun a => f a >>= g := by
  cases x <;> rfl

theorem quoteBody_ends {q : Str} {name n ctx} : Ends (Any (α := Unit)) n 3 (consumingRule name n ctx (fun nodes ctx => do
      let nodes ← liftA (Flat.consumeThisValue q nodes)
      .ok ((), nodes, ctx))) := by
  refine Ends.consuming (k := 1) ?_
  rintro l rfl
  refine Ends.thisValue ?_
  rintro l' rfl
  exact Ends.ok trivial (List.suffix_cons _ _) (by simp)

theorem quote_ends {n ctx β} {Q' : β → Prop} {j : Nat} {f : List FNode × Context → Res β}
    (hf : ∀ n' c, n' <:+ n → n'.length + 3 ≤ n.length → Ends Q' n j (f (n', c))) :
    Ends Q' n j (consumeQuote n ctx >>= f) := by
  rw [consumeQuote_eq, assoc]
  refine Ends.bind quoteBody_ends ?_
  intro a n' c _ hs hl
  exact hf n' c hs hl

theorem singleQuote_ends {n ctx β} {Q' : β → Prop} {j : Nat} {f : List FNode × Context → Res β}
    (hf : ∀ n' c, n' <:+ n → n'.length + 3 ≤ n.length → Ends Q' n j (f (n', c))) :
    Ends Q' n j (consumeSingleQuote n ctx >>= f) := by
  rw [consumeSingleQuote_eq, assoc]
  refine Ends.bind quoteBody_ends ?_
  intro a n' c _ hs hl
  exact hf n' c hs hl

theorem escChar_ends {n ctx} : Ends ValidLiteral n 3 (consumeEscChar n ctx) := by
  unfold consumeEscChar
  refine Ends.consuming (k := 1) ?_
  rintro l rfl
  refine Ends.consumeVal ?_
  rintro v l' rfl
  have key : ∀ w : Str, ValidLiteral w → Ends ValidLiteral (.val v :: l') 1 ((.ok w : Out PegError Str) >>= fun val => .ok (val, l', ctx)) :=
    fun w hw => Ends.ok hw (List.suffix_cons _ _) (by simp)
  dsimp only
  split
  · exact key _ (by simp [ValidLiteral])
  · split
    · exact key _ (by simp [ValidLiteral])
    · split
      · exact key _ (by simp [ValidLiteral])
      · split
        · exact key _ (by simp [ValidLiteral])
        · split
          · exact key _ (by simp [ValidLiteral])
          · trivial

theorem hexDigit_of {c : Char} (h : HexChar c) : ∃ d, hexDigit c = some d ∧ d < 16 := by
  rcases h with h | h
  · refine ⟨c.toNat - '0'.toNat, if_pos h, ?_⟩
    have : c.toNat ≤ '9'.toNat := h.2
    have : '0'.toNat = 48 := rfl
    have : '9'.toNat = 57 := rfl
    omega
  · refine ⟨c.toNat - 'A'.toNat + 10, ?_, ?_⟩
    · have h1 : 'A'.toNat ≤ c.toNat := h.1
      have h2 : c.toNat ≤ 'F'.toNat := h.2
      have e1 : 'A'.toNat = 65 := rfl
      have e2 : 'F'.toNat = 70 := rfl
      have n1 : ¬ ('0' ≤ c ∧ c ≤ '9') := by
        rintro ⟨_, h⟩
        have : c.toNat ≤ '9'.toNat := h
        have : '9'.toNat = 57 := rfl
        omega
      have n2 : ¬ ('a' ≤ c ∧ c ≤ 'f') := by
        rintro ⟨h, _⟩
        have : 'a'.toNat ≤ c.toNat := h
        have : 'a'.toNat = 97 := rfl
        omega
      unfold hexDigit
      rw [if_neg n1, if_neg n2, if_pos h]
    · have : c.toNat ≤ 'F'.toNat := h.2
      have e1 : 'A'.toNat = 65 := rfl
      have e2 : 'F'.toNat = 70 := rfl
      omega

theorem hexChar_ends {n ctx} (hok : FlatOK n) : Ends ValidLiteral n 3 (consumeHexChar n ctx) := by
  unfold consumeHexChar
  refine Ends.consuming (k := 1) ?_
  rintro l rfl
  obtain ⟨a, b, q, ha, hb, rfl⟩ := (headOK_of hok).1 rfl
  refine Ends.consumeVal ?_
  rintro v' l' h'
  cases h'
  obtain ⟨d1, h1, hd1⟩ := hexDigit_of ha
  obtain ⟨d2, h2, hd2⟩ := hexDigit_of hb
  have e : dropBytes 3 ['\\', '0', 'x', a, b] = some [a, b] := by
    have e1 : Char.utf8Size '\\' = 1 := rfl
    have e2 : Char.utf8Size '0' = 1 := rfl
    have e3 : Char.utf8Size 'x' = 1 := rfl
    simp [dropBytes, e1, e2, e3]
  have hp : a ≠ '+' := by
    rintro rfl
    rcases ha with ⟨h, _⟩ | ⟨h, _⟩ <;> exact absurd h (by decide)
  have e' : u8FromStrRadix16 [a, b] = some (d1 * 16 + d2) := by
    have : u8FromStrRadix16 [a, b] = u8Digits 0 [a, b] := by
      unfold u8FromStrRadix16
      split <;> simp_all
    rw [this]
    simp only [u8Digits, h1, h2]
    rw [if_pos (by omega), if_pos (by omega)]
    simp
  simp only [e]
  rw [e']
  refine Ends.ok ?_ (List.suffix_cons _ _) (by simp)
  intro c hc
  simp only [List.mem_singleton] at hc
  subst hc
  have hv : (d1 * 16 + d2).isValidChar := Or.inl (by omega)
  have : (Char.ofNat (d1 * 16 + d2)).toNat = d1 * 16 + d2 := by
    simp [Char.toNat, Char.ofNat, hv, Char.ofNatAux]
    omega
  omega

theorem element_ends {n ctx} (hok : FlatOK n) : Ends ValidLiteral n 1 (consumeElement n ctx) := by
  unfold consumeElement
  refine Ends.peek ?_
  rintro x l rfl
  have weak : ∀ {r : Res Str}, Ends ValidLiteral (x :: l) 3 r → Ends ValidLiteral (x :: l) 1 r := fun h =>
    h.weaken (List.suffix_refl _) (j := 0) (by simp) (by omega) (fun _ h => h)
  cases x with
  | beginRule r =>
    refine Ends.ite (fun _ => weak escChar_ends) (fun _ => ?_)
    refine Ends.ite (fun _ => weak (hexChar_ends hok)) (fun _ => trivial)
  | val v =>
    refine Ends.consumeVal ?_
    rintro v' l' h'
    cases h'
    refine Ends.ok ?_ (List.suffix_cons _ _) (by simp)
    intro c hc
    have := headOK_of hok c hc
    omega
  | _ => trivial

theorem ValidLiteral.append {a b} (h : ValidLiteral a) (h' : ValidLiteral b) : ValidLiteral (a ++ b) := by
  intro c hc
  rcases List.mem_append.mp hc with hc | hc
  · exact h c hc
  · exact h' c hc

theorem litEscCh_ends : ∀ f acc n ctx, FlatOK n → n.length < f → ValidLiteral acc →
    Ends ValidLiteral n 0 (recConsumeLitEscCh f acc n ctx) := by
  intro f
  induction f with
  | zero => intro acc n ctx _ h; omega
  | succ f ih =>
    intro acc n ctx hok hf hacc
    rw [recConsumeLitEscCh]
    refine Ends.peek ?_
    rintro x l rfl
    have hrec : Ends ValidLiteral (x :: l) 0 (do
        let (v, nodes, ctx) ← consumeElement (x :: l) ctx
        recConsumeLitEscCh f (acc ++ v) nodes ctx) := by
      refine Ends.bind (element_ends hok) ?_
      intro v n' c hv hs hl
      exact (ih _ n' c (hok.suffix hs) (by simp at hf hl; omega) (ValidLiteral.append hacc hv)).weaken hs hl (by omega)
        (fun _ h => h)
    cases x with
    | beginRule r =>
      exact Ends.ite (fun _ => Ends.ok hacc (List.suffix_refl _) (by simp)) (fun _ => hrec)
    | endRule r =>
      exact Ends.ite (fun _ => Ends.ok hacc (List.suffix_refl _) (by simp)) (fun _ => hrec)
    | _ => exact hrec

theorem literalEsc_ends {f n ctx} (hok : FlatOK n) (hf : n.length < f) :
    Ends ValidLiteral n 2 (consumeLiteralEsc f n ctx) := by
  unfold consumeLiteralEsc
  refine Ends.consuming (k := 0) ?_
  rintro l rfl
  have hok' : FlatOK l := hok.suffix (List.suffix_cons _ _)
  refine quote_ends ?_
  intro n1 c1 hs1 hl1
  refine Ends.weaken (k := 0) ?_ hs1 hl1 (by omega) (fun a h => h)
  refine Ends.bind (litEscCh_ends f [] n1 c1 (hok'.suffix hs1) (by simp at hf; omega) (by simp [ValidLiteral])) ?_
  intro v n2 c2 hv hs2 hl2
  apply Ends.push
  refine Ends.weaken (k := 0) ?_ hs2 hl2 (by omega) (fun a h => h)
  refine quote_ends ?_
  intro n3 c3 hs3 hl3
  exact Ends.ok hv hs3 (by omega)

theorem doubleBackslashes_valid {v} (h : ValidLiteral v) : ValidLiteral (doubleBackslashes v) := by
  induction v with
  | nil => simp [doubleBackslashes, ValidLiteral]
  | cons c v ih =>
    have h1 : ValidLiteral v := fun d hd => h d (by simp [hd])
    have h2 := h c (by simp)
    rw [doubleBackslashes]
    split
    · intro d hd
      simp only [List.mem_cons] at hd
      rcases hd with rfl | rfl | hd
      · decide
      · decide
      · exact ih h1 d hd
    · intro d hd
      rcases List.mem_cons.mp hd with rfl | hd
      · exact h2
      · exact ih h1 d hd

theorem literalNoEsc_ends {n ctx} (hok : FlatOK n) : Ends ValidLiteral n 2 (consumeLiteralNoEsc n ctx) := by
  unfold consumeLiteralNoEsc
  refine Ends.consuming (k := 0) ?_
  rintro l rfl
  have hok' : FlatOK l := hok.suffix (List.suffix_cons _ _)
  refine singleQuote_ends ?_
  intro n1 c1 hs1 hl1
  refine Ends.weaken (k := 0) ?_ hs1 hl1 (by omega) (fun a h => h)
  have hok1 := hok'.suffix hs1
  refine Ends.consumeVal ?_
  rintro v l' rfl
  have hv : ValidLiteral v := fun c hc => by have := headOK_of hok1 c hc; omega
  apply Ends.push
  refine Ends.weaken (k := 0) (n := l') ?_ (List.suffix_cons _ _) (j := 1) (by simp) (by omega) (fun a h => h)
  refine singleQuote_ends ?_
  intro n3 c3 hs3 hl3
  exact Ends.ok (doubleBackslashes_valid hv) hs3 (by omega)

theorem literalString_ends {f n ctx} (hok : FlatOK n) (hf : n.length < f) :
    Ends ValidLiteral n 2 (consumeLiteralString f n ctx) := by
  unfold consumeLiteralString
  refine Ends.consuming (k := 0) ?_
  rintro l rfl
  have hok' : FlatOK l := hok.suffix (List.suffix_cons _ _)
  refine Ends.peek ?_
  rintro x l' rfl
  refine Ends.nodename ?_
  intro nm _
  refine Ends.ite (fun _ => ?_) (fun _ => ?_)
  · exact (literalNoEsc_ends hok').weaken (List.suffix_refl _) (j := 0) (by simp) (by omega) (fun _ h => h)
  refine Ends.ite (fun _ => ?_) (fun _ => trivial)
  exact (literalEsc_ends hok' (by simp at hf ⊢; omega)).weaken (List.suffix_refl _) (j := 0) (by simp) (by omega)
    (fun _ h => h)

theorem literalExpr_ends {f n ctx} (hok : FlatOK n) (hf : n.length < f) :
    Ends PegExpr n 2 (consumeLiteralExpr f n ctx) := by
  unfold consumeLiteralExpr
  refine Ends.bind (literalString_ends hok hf) ?_
  intro v n' c hv hs hl
  exact Ends.ok (.literal hv) hs hl

theorem dot_ends {n ctx} : Ends PegExpr n 2 (consumeDot n ctx) := by
  unfold consumeDot
  refine Ends.consuming (k := 0) ?_
  rintro l rfl
  refine Ends.consumeVal ?_
  rintro v l' rfl
  exact Ends.ok .dot (List.suffix_cons _ _) (by simp)

theorem ruleRef_ends {f n ctx} (hok : FlatOK n) (hf : n.length < f) :
    Ends PegExpr n 2 (consumeRuleRef f n ctx) := by
  unfold consumeRuleRef
  apply Ends.push
  refine Ends.bind (ruleName_ends hok hf) ?_
  intro v n' c hv hs hl
  exact Ends.ok (.ref hv) hs (by omega)

theorem error_ends {f n ctx} (hok : FlatOK n) (hf : n.length < f) :
    Ends PegExpr n 2 (consumeError f n ctx) := by
  unfold consumeError
  refine Ends.bind (Q := ValidLiteral) (k := 2) ?_ (fun v n' c hv hs hl => Ends.ok (.error hv) hs hl)
  refine Ends.consuming (k := 0) ?_
  rintro l rfl
  have hok' : FlatOK l := hok.suffix (List.suffix_cons _ _)
  refine Ends.thisValue ?_
  rintro l1 rfl
  have hok1 : FlatOK l1 := hok'.suffix (List.suffix_cons _ _)
  refine Ends.thisValue ?_
  rintro l2 rfl
  have hok2 : FlatOK l2 := hok1.suffix (List.suffix_cons _ _)
  refine Ends.weaken (k := 0) (n := l2) ?_ ((List.suffix_cons _ _).trans (List.suffix_cons _ _)) (j := 2) (by simp)
    (by omega) (fun a h => h)
  refine Ends.bind (literalString_ends hok2 (by simp at hf; omega)) ?_
  intro v n' c hv hs hl
  refine Ends.thisValue ?_
  rintro l3 rfl
  exact Ends.ok hv ((List.suffix_cons _ _).trans hs) (by simp at hl ⊢; omega)

/-! ### Classes -/

theorem rangesFlat_eq (rs : List (Char × Char)) (p) : rangesFlat (p :: rs) =
    .beginRule c!"mbetween" :: .val [p.1, '-', p.2] :: .endRule c!"mbetween" :: rangesFlat rs := rfl

theorem mbetween_run : ∀ (rs : List (Char × Char)) f acc q ctx, rs.length < f →
    recConsumeMbetween f acc (rangesFlat rs ++ .val c!"]" :: q) ctx = .ok (acc ++ rs, .val c!"]" :: q, ctx) := by
  intro rs
  induction rs with
  | nil =>
    intro f acc q ctx hf
    obtain ⟨f, rfl⟩ : ∃ g, f = g + 1 := ⟨f - 1, by simp at hf; omega⟩
    rw [recConsumeMbetween, List.append_nil]
    rfl
  | cons p rs ih =>
    intro f acc q ctx hf
    obtain ⟨f, rfl⟩ : ∃ g, f = g + 1 := ⟨f - 1, by simp at hf; omega⟩
    have h := ih f (acc ++ [p]) q ctx (by simp at hf; omega)
    rw [List.append_assoc, List.singleton_append] at h
    rw [recConsumeMbetween, ← h]
    rfl

theorem rangesFlat_length (rs : List (Char × Char)) : (rangesFlat rs).length = 3 * rs.length := by
  induction rs with
  | nil => rfl
  | cons p rs ih => rw [rangesFlat_eq]; simp [ih]; omega

theorem match_run {cs rs f q ctx} (h : cs ≠ [] ∨ rs ≠ []) (hf : rs.length < f) :
    consumeMatch f (.beginRule c!"match" :: .val c!"[" :: (classFlat cs rs ++ .val c!"]" :: .endRule c!"match" :: q)) ctx =
      .ok (.simple (.mtch cs rs), q, ctx) := by
  have hr := mbetween_run rs f [] (.endRule c!"match" :: q) ctx hf
  rw [List.nil_append] at hr
  unfold consumeMatch consumingRule
  rw [start_ok]
  by_cases hc : cs = []
  · subst hc
    cases rs with
    | nil => simp at h
    | cons p rs =>
      show pushErr _ (recConsumeMbetween f [] (rangesFlat (p :: rs) ++ _) ctx >>= _ >>= _) = _
      rw [hr]
      rfl
  · have : classFlat cs rs = .beginRule c!"mchars" :: .val cs :: .endRule c!"mchars" :: rangesFlat rs := by
      simp [classFlat, hc]
    rw [this]
    show pushErr _ (recConsumeMbetween f [] (rangesFlat rs ++ _) ctx >>= _ >>= _) = _
    rw [hr]
    cases rs with
    | nil => rfl
    | cons p rs => rfl

theorem match_ends {f n ctx} (hok : FlatOK n) (hf : n.length < f) : Ends PegExpr n 2 (consumeMatch f n ctx) := by
  have key : ∀ l, n = .beginRule c!"match" :: l → Ends PegExpr n 2 (consumeMatch f n ctx) := by
    rintro l rfl
    obtain ⟨cs, rs, q, hv, rfl⟩ := (headOK_of hok).2.2 rfl
    have hlen : rs.length < f := by
      simp [classFlat, rangesFlat_length] at hf
      omega
    unfold consumeMatch
    refine Ends.consuming (k := 0) ?_
    intro l' hl'
    cases hl'
    have hr := mbetween_run rs f [] q ctx hlen
    rw [List.nil_append] at hr
    rw [this_ok]
    have hsuf : ∀ a : List FNode, q <:+ a ++ .val c!"]" :: q := fun a =>
      (List.suffix_cons _ _).trans (List.suffix_append a _)
    by_cases hc : cs = []
    · subst hc
      cases rs with
      | nil => exact absurd hv.nonempty (by simp)
      | cons p rs =>
        show Ends PegExpr _ 0 (recConsumeMbetween f [] (rangesFlat (p :: rs) ++ _) ctx >>= _)
        rw [hr]
        refine Ends.ok (.cls hv) ?_ ?_
        · exact (hsuf _).trans (List.suffix_cons _ _)
        · simp; omega
    · have : classFlat cs rs = .beginRule c!"mchars" :: .val cs :: .endRule c!"mchars" :: rangesFlat rs := by
        simp [classFlat, hc]
      rw [this] at *
      show Ends PegExpr _ 0 (recConsumeMbetween f [] (rangesFlat rs ++ _) ctx >>= _)
      rw [hr]
      have hs : q <:+ FNode.val c!"[" :: (.beginRule c!"mchars" :: .val cs :: .endRule c!"mchars" :: rangesFlat rs ++ .val c!"]" :: q) :=
        (hsuf _).trans (List.suffix_cons _ _)
      cases rs with
      | nil => exact Ends.ok (.cls hv) hs (by simp; omega)
      | cons p rs => exact Ends.ok (.cls hv) hs (by simp; omega)
  cases n with
  | nil => trivial
  | cons x l =>
    cases x with
    | beginRule nm =>
      by_cases h : nm = c!"match"
      · subst h; exact key l rfl
      · unfold consumeMatch consumingRule
        rw [start_err h]
        trivial
    | _ => trivial

/-! ### Expressions -/

/-- the pieces collected so far -/
def EOVOK : EOV → Prop
  | .none => True
  | .expr e => PegExpr e
  | .vexpr v => 2 ≤ v.length ∧ ∀ e ∈ v, PegExpr e

theorem EOVOK.push {o e} (h : EOVOK o) (he : PegExpr e) : EOVOK (o.ipush e) := by
  cases o with
  | none => exact he
  | expr a =>
    refine ⟨by simp, ?_⟩
    intro x hx
    simp only [List.mem_cons, List.not_mem_nil, or_false] at hx
    rcases hx with rfl | rfl
    · exact h
    · exact he
  | vexpr v =>
    refine ⟨by have := h.1; simp; omega, ?_⟩
    intro x hx
    rcases List.mem_append.mp hx with hx | hx
    · exact h.2 x hx
    · simp only [List.mem_singleton] at hx
      subst hx
      exact he

theorem repetition_ends {e v n base ctx} {k : Nat} (he : PegExpr e) (hs : n <:+ base) (hl : n.length + k ≤ base.length) :
    Ends PegExpr base k (processRepetitionIndicator e v >>= fun e => .ok (e, n, ctx)) := by
  unfold processRepetitionIndicator
  split
  · exact Ends.ok (.plus he) hs hl
  split
  · exact Ends.ok (.star he) hs hl
  split
  · exact Ends.ok (.opt he) hs hl
  · trivial

theorem expr_ends : ∀ f,
    (∀ n ctx, FlatOK n → 2 * n.length + 1 ≤ f → Ends PegExpr n 2 (consumePegExpr f n ctx)) ∧
    (∀ n ctx, FlatOK n → 2 * n.length + 2 ≤ f → Ends PegExpr n 2 (consumeOr f n ctx)) ∧
    (∀ o n ctx, FlatOK n → 2 * n.length + 1 ≤ f → EOVOK o → Ends EOVOK n 2 (recConsumeOr f o n ctx)) ∧
    (∀ n ctx, FlatOK n → 2 * n.length + 2 ≤ f → Ends PegExpr n 2 (consumeAnd f n ctx)) ∧
    (∀ o n ctx, FlatOK n → 2 * n.length + 1 ≤ f → EOVOK o → Ends EOVOK n 2 (recConsumeAnd f o n ctx)) ∧
    (∀ n ctx, FlatOK n → 2 * n.length + 1 ≤ f → Ends PegExpr n 2 (consumeRepOrNeg f n ctx)) ∧
    (∀ n ctx, FlatOK n → 2 * n.length + 1 ≤ f → Ends PegExpr n 2 (consumeAtomOrPar f n ctx)) ∧
    (∀ n ctx, FlatOK n → 2 * n.length + 1 ≤ f → Ends PegExpr n 2 (consumeAtom f n ctx)) ∧
    (∀ n ctx, FlatOK n → 2 * n.length + 1 ≤ f → Ends PegExpr n 2 (consumeParenth f n ctx)) := by
  intro f
  induction f with
  | zero =>
    refine ⟨?_, ?_, ?_, ?_, ?_, ?_, ?_, ?_, ?_⟩ <;> intros <;> omega
  | succ f ih =>
    obtain ⟨iExpr, iOr, iRecOr, iAnd, iRecAnd, iRep, iAtomPar, iAtom, iPar⟩ := ih
    have weak0 : ∀ {α : Type} {Q : α → Prop} {n : List FNode} {r : Res α}, Ends Q n 2 r → Ends Q n 0 r := fun h =>
      h.weaken (List.suffix_refl _) (j := 0) (by omega) (by omega) (fun _ h => h)
    refine ⟨?_, ?_, ?_, ?_, ?_, ?_, ?_, ?_, ?_⟩
    · intro n ctx hok hf
      rw [consumePegExpr]
      refine Ends.consuming (k := 0) ?_
      rintro l rfl
      exact weak0 (iOr l ctx (hok.suffix (List.suffix_cons _ _)) (by simp at hf; omega))
    · intro n ctx hok hf
      rw [consumeOr]
      apply Ends.push
      refine Ends.bind (iRecOr .none n ctx hok (by omega) trivial) ?_
      intro o n' c ho hs hl
      cases o with
      | none => trivial
      | expr e => exact Ends.ok ho hs hl
      | vexpr v => exact Ends.ok (.or ho.1 ho.2) hs hl
    · intro o n ctx hok hf ho
      rw [recConsumeOr]
      refine Ends.consuming (k := 0) ?_
      rintro l rfl
      have hok' : FlatOK l := hok.suffix (List.suffix_cons _ _)
      refine Ends.bind (iAnd l ctx hok' (by simp at hf; omega)) ?_
      intro e n' c he hs hl
      refine Ends.weaken (n := n') (k := 0) ?_ hs hl (by omega) (fun _ h => h)
      have hok1 := hok'.suffix hs
      refine Ends.peek ?_
      rintro x l' rfl
      cases x with
      | val v =>
        refine Ends.thisValue ?_
        intro l'' h''
        cases h''
        exact (iRecOr _ l' c (hok1.suffix (List.suffix_cons _ _)) (by simp at hf hl; omega) (ho.push he)).weaken
          (List.suffix_cons _ _) (j := 1) (by simp) (by omega) (fun _ h => h)
      | _ => exact Ends.ok (ho.push he) (List.suffix_refl _) (by simp)
    · intro n ctx hok hf
      rw [consumeAnd]
      refine Ends.bind (iRecAnd .none n ctx hok (by omega) trivial) ?_
      intro o n' c ho hs hl
      cases o with
      | none => trivial
      | expr e => exact Ends.ok ho hs hl
      | vexpr v => exact Ends.ok (.and ho.1 ho.2) hs hl
    · intro o n ctx hok hf ho
      rw [recConsumeAnd]
      refine Ends.consuming (k := 0) ?_
      rintro l rfl
      have hok' : FlatOK l := hok.suffix (List.suffix_cons _ _)
      refine Ends.peek ?_
      rintro x l1 rfl
      refine Ends.nodename ?_
      intro nm _
      refine Ends.ite (fun _ => ?_) (fun _ => ?_)
      · refine Ends.bind (error_ends hok' (by simp at hf ⊢; omega)) ?_
        intro e n' c he hs hl
        exact Ends.ok (ho.push he) hs (by omega)
      · refine Ends.bind (iRep _ ctx hok' (by simp at hf ⊢; omega)) ?_
        intro e n' c he hs hl
        refine Ends.weaken (n := n') (k := 0) ?_ hs hl (by omega) (fun _ h => h)
        have hok1 := hok'.suffix hs
        refine Ends.peek ?_
        rintro x l' rfl
        cases x with
        | beginRule m =>
          refine Ends.ite (fun _ => ?_) (fun _ => Ends.ok (ho.push he) (List.suffix_refl _) (by simp))
          exact weak0 (iRecAnd _ _ c hok1 (by simp at hf hl ⊢; omega) (ho.push he))
        | _ => exact Ends.ok (ho.push he) (List.suffix_refl _) (by simp)
    · intro n ctx hok hf
      rw [consumeRepOrNeg]
      refine Ends.consuming (k := 0) ?_
      rintro l rfl
      have hok' : FlatOK l := hok.suffix (List.suffix_cons _ _)
      refine Ends.peek ?_
      rintro x l1 rfl
      have other : Ends PegExpr (x :: l1) 0 (do
          let (expr, nodes, ctx) ← consumeAtomOrPar f (x :: l1) ctx
          let nextNode ← liftA (Flat.peekFirstNode nodes)
          match nextNode with
          | .val _ => do
            let (sep, nodes) ← liftA (Flat.consumeVal nodes)
            let e ← processRepetitionIndicator expr sep
            .ok (e, nodes, ctx)
          | _ => .ok (expr, nodes, ctx)) := by
        refine Ends.bind (iAtomPar _ ctx hok' (by simp at hf ⊢; omega)) ?_
        intro e n' c he hs hl
        refine Ends.weaken (n := n') (k := 0) ?_ hs hl (by omega) (fun _ h => h)
        refine Ends.peek ?_
        rintro y l' rfl
        cases y with
        | val w =>
          refine Ends.consumeVal ?_
          rintro w' l'' h''
          cases h''
          exact repetition_ends he (List.suffix_cons _ _) (by simp)
        | _ => exact Ends.ok he (List.suffix_refl _) (by simp)
      cases x with
      | val v =>
        refine Ends.ite (fun _ => ?_) (fun _ => trivial)
        refine Ends.thisValue ?_
        intro l2 h2
        cases h2
        refine Ends.weaken (n := l1) (k := 0) ?_ (List.suffix_cons _ _) (j := 1) (by simp) (by omega) (fun _ h => h)
        refine Ends.bind (iAtomPar l1 ctx (hok'.suffix (List.suffix_cons _ _)) (by simp at hf; omega)) ?_
        intro e n' c he hs hl
        exact Ends.ok (.not he) hs (by omega)
      | _ => exact other
    · intro n ctx hok hf
      rw [consumeAtomOrPar]
      refine Ends.consuming (k := 0) ?_
      rintro l rfl
      have hok' : FlatOK l := hok.suffix (List.suffix_cons _ _)
      refine Ends.peek ?_
      rintro x l1 rfl
      refine Ends.nodename ?_
      intro nm _
      apply Ends.push
      refine Ends.ite (fun _ => weak0 (iAtom _ ctx hok' (by simp at hf ⊢; omega))) (fun _ => ?_)
      exact Ends.ite (fun _ => weak0 (iPar _ ctx hok' (by simp at hf ⊢; omega))) (fun _ => trivial)
    · intro n ctx hok hf
      rw [consumeAtom]
      refine Ends.consuming (k := 0) ?_
      rintro l rfl
      have hok' : FlatOK l := hok.suffix (List.suffix_cons _ _)
      refine Ends.peek ?_
      rintro x l1 rfl
      refine Ends.nodename ?_
      intro nm _
      apply Ends.push
      have hlen : (x :: l1).length < f := by simp at hf ⊢; omega
      refine Ends.ite (fun _ => weak0 (literalExpr_ends hok' hlen)) (fun _ => ?_)
      refine Ends.ite (fun _ => weak0 (ruleRef_ends hok' hlen)) (fun _ => ?_)
      refine Ends.ite (fun _ => weak0 dot_ends) (fun _ => ?_)
      exact Ends.ite (fun _ => weak0 (match_ends hok' hlen)) (fun _ => trivial)
    · intro n ctx hok hf
      rw [consumeParenth]
      refine Ends.consuming (k := 0) ?_
      rintro l rfl
      have hok' : FlatOK l := hok.suffix (List.suffix_cons _ _)
      refine Ends.thisValue ?_
      rintro l1 rfl
      refine Ends.weaken (n := l1) (k := 0) ?_ (List.suffix_cons _ _) (j := 1) (by simp) (by omega) (fun _ h => h)
      refine Ends.bind (iExpr l1 ctx (hok'.suffix (List.suffix_cons _ _)) (by simp at hf; omega)) ?_
      intro e n' c he hs hl
      refine Ends.thisValue ?_
      rintro l3 rfl
      exact Ends.ok he ((List.suffix_cons _ _).trans hs) (by simp at hl ⊢; omega)

/-! ### Rules, modules, grammars -/

theorem rule_ends {f n ctx} (hok : FlatOK n) (hf : 2 * n.length + 1 ≤ f) :
    Ends (fun p => ValidName p.1 ∧ PegExpr p.2) n 2 (consumeRule f n ctx) := by
  unfold consumeRule
  refine Ends.consuming (k := 0) ?_
  rintro l rfl
  have hok' : FlatOK l := hok.suffix (List.suffix_cons _ _)
  refine Ends.bind (ruleName_ends hok' (by simp at hf; omega)) ?_
  intro nm n1 c1 hnm hs1 hl1
  have hok1 := hok'.suffix hs1
  refine Ends.weaken (n := n1) (k := 0) ?_ hs1 hl1 (by omega) (fun _ h => h)
  refine Ends.thisValue ?_
  rintro l2 rfl
  refine Ends.weaken (n := l2) (k := 0) ?_ (List.suffix_cons _ _) (j := 1) (by simp) (by omega) (fun _ h => h)
  refine Ends.bind ((expr_ends f).1 l2 c1 (hok1.suffix (List.suffix_cons _ _)) (by simp at hf hl1; omega)) ?_
  intro e n' c he hs hl
  exact Ends.ok ⟨hnm, he⟩ hs (by omega)

theorem mem_insertEntry {l : List (Str × Expr)} {kv x : Str × Expr} (h : x ∈ SetOfRules.insertEntry l kv) :
    x = kv ∨ x ∈ l := by
  unfold SetOfRules.insertEntry at h
  rcases List.mem_cons.mp h with h | h
  · exact Or.inl h
  · exact Or.inr (List.mem_filter.mp h).1

theorem add_ok {R : SetOfRules} {n e} (h : PegRulesOK R) (hn : ValidName n) (he : PegExpr e) :
    PegRulesOK (R.add n e) := by
  intro ne hne
  rcases mem_insertEntry hne with rfl | hne
  · exact ⟨hn, he⟩
  · exact h ne hne

theorem mem_foldl_insert {l acc : List (Str × Expr)} {x : Str × Expr}
    (h : x ∈ l.foldl SetOfRules.insertEntry acc) : x ∈ l ∨ x ∈ acc := by
  induction l generalizing acc with
  | nil => exact Or.inr h
  | cons y l ih =>
    rcases ih h with h | h
    · exact Or.inl (by simp [h])
    · rcases mem_insertEntry h with rfl | h
      · exact Or.inl (by simp)
      · exact Or.inr h

theorem merge_ok {R S : SetOfRules} (h : PegRulesOK R) (h' : PegRulesOK S) : PegRulesOK (R.merge S) := by
  intro ne hne
  rcases mem_foldl_insert hne with hne | hne
  · rcases List.mem_append.mp hne with hne | hne
    · exact h' ne hne
    · exact h ne hne
  · cases hne

/-- rules of the notation, each name once -/
def RulesQ (R : SetOfRules) : Prop := PegRulesOK R ∧ UniqueKeys R

theorem grammar_ends : ∀ f,
    (∀ n ctx, FlatOK n → 2 * n.length + 1 ≤ f → Ends RulesQ n 2 (consumeGrammar f n ctx)) ∧
    (∀ R n ctx, FlatOK n → 2 * n.length + 2 ≤ f → RulesQ R →
      Ends RulesQ n 0 (recConsumeRulesOrModules f R n ctx)) ∧
    (∀ n ctx, FlatOK n → 2 * n.length + 1 ≤ f → Ends RulesQ n 2 (consumeModule f n ctx)) := by
  intro f
  induction f with
  | zero =>
    refine ⟨?_, ?_, ?_⟩ <;> intros <;> omega
  | succ f ih =>
    obtain ⟨iGr, iRec, iMod⟩ := ih
    refine ⟨?_, ?_, ?_⟩
    · intro n ctx hok hf
      rw [consumeGrammar]
      refine Ends.consuming (k := 0) ?_
      rintro l rfl
      exact iRec _ l ctx (hok.suffix (List.suffix_cons _ _)) (by simp at hf; omega) ⟨(by intro ne h; cases h), C22_keys_unique.1⟩
    · intro R n ctx hok hf hR
      rw [recConsumeRulesOrModules]
      refine Ends.peek ?_
      rintro x l rfl
      cases x with
      | beginRule nm =>
        refine Ends.ite (fun _ => ?_) (fun _ => ?_)
        · refine Ends.bind (rule_ends hok (by omega)) ?_
          rintro ⟨m, e⟩ n' c ⟨hm, he⟩ hs hl
          exact (iRec _ n' c (hok.suffix hs) (by omega) ⟨add_ok hR.1 hm he, C22_keys_unique.2.1 _ _ _ hR.2⟩).weaken hs hl (by omega) (fun _ h => h)
        · refine Ends.ite (fun _ => ?_) (fun _ => trivial)
          refine Ends.bind (iMod _ ctx hok (by omega)) ?_
          intro S n' c hS hs hl
          exact (iRec _ n' c (hok.suffix hs) (by omega) ⟨merge_ok hR.1 hS.1, C22_keys_unique.2.2.1 _ _⟩).weaken hs hl (by omega) (fun _ h => h)
      | _ => exact Ends.ok hR (List.suffix_refl _) (by simp)
    · intro n ctx hok hf
      rw [consumeModule]
      refine Ends.consuming (k := 0) ?_
      rintro l rfl
      have hok' : FlatOK l := hok.suffix (List.suffix_cons _ _)
      refine Ends.bind (modName_ends hok') ?_
      intro nm n1 c1 hnm hs1 hl1
      have hok1 := hok'.suffix hs1
      refine Ends.weaken (n := n1) (k := 0) ?_ hs1 hl1 (by omega) (fun _ h => h)
      refine Ends.thisValue ?_
      rintro l2 rfl
      refine Ends.weaken (n := l2) (k := 0) ?_ (List.suffix_cons _ _) (j := 1) (by simp) (by omega) (fun _ h => h)
      refine Ends.bind (iGr l2 _ (hok1.suffix (List.suffix_cons _ _)) (by simp at hf hl1; omega)) ?_
      intro S n' c hS hs hl
      refine Ends.thisValue ?_
      rintro l3 rfl
      unfold Context.removeModule
      cases c.insideMods.getLast? with
      | none => trivial
      | some _ => exact Ends.ok hS ((List.suffix_cons _ _).trans hs) (by simp at hl ⊢; omega)

theorem main_ends {f n ctx} (hok : FlatOK n) (hf : 2 * n.length + 1 ≤ f) :
    Ends RulesQ n 2 (consumeMain f n ctx) := by
  unfold consumeMain
  refine Ends.consuming (k := 0) ?_
  rintro l rfl
  exact ((grammar_ends f).1 l ctx (hok.suffix (List.suffix_cons _ _)) (by simp at hf; omega)).weaken
    (List.suffix_refl _) (j := 0) (by omega) (by omega) (fun _ h => h)

end DP.Peg
