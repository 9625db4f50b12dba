/-
Rules with recursion in last position only: what an expression does with a text is found by reading the text from its end to its beginning with
finite memory.
-/
import Mathlib.Computability.NFA
import Mathlib.Data.Fintype.Powerset
import Mathlib.Data.Fintype.Option
import Mathlib.Data.Finite.Prod
import Verif.Spec.TailCalls
import Verif.Proofs.PegTree
import Verif.Proofs.TreeSize

namespace DP
open Spec

/-! ### What becomes of a text -/

inductive Fate (A : Type) where
  | ok (a : A)
  | fail
  | crit

namespace Fate

def map {A B : Type} (f : A → B) : Fate A → Fate B
  | .ok a => .ok (f a)
  | .fail => .fail
  | .crit => .crit

instance {A : Type} [Finite A] : Finite (Fate A) := by
  refine Finite.of_injective (β := Option (Option A)) (fun x => match x with | .ok a => some (some a) | .fail => some none | .crit => none) ?_
  intro x y h
  cases x <;> cases y <;> simp_all

end Fate

/-- what is done with each text: the rest, or failure -/
abbrev Beh := Str → Fate Str → Prop

/-- of the rest, only `ρ` is known -/
def Comes {A : Type} (B : Beh) (ρ : Str → A) (s : Str) (x : Fate A) : Prop := ∃ d, B s d ∧ x = d.map ρ

/-- of the rest, only `ρ` is known, or that it is the whole text -/
def Lands {A : Type} (B : Beh) (ρ : Str → A) (s : Str) (x : Fate (Option A)) : Prop :=
  ∃ d, B s d ∧ x = d.map fun r => if r = s then none else some (ρ r)

/-- the rest is a rest -/
def Shrinks (B : Beh) : Prop := ∀ s r, B s (.ok r) → r <:+ s

theorem comes_of_lands {A : Type} {B : Beh} {ρ : Str → A} {s s' : Str} (hρ : ρ s = ρ s') (h : ∀ x, Lands B ρ s x → Lands B ρ s' x) :
    ∀ x, Comes B ρ s x → Comes B ρ s' x := by
  rintro x ⟨d, hd, rfl⟩
  obtain ⟨d', hd', he⟩ := h _ ⟨d, hd, rfl⟩
  refine ⟨d', hd', ?_⟩
  cases d with
  | ok r =>
    cases d' with
    | ok r' =>
      simp only [Fate.map, Fate.ok.injEq] at he ⊢
      by_cases h1 : r = s <;> by_cases h2 : r' = s'
      · rw [h1, h2, hρ]
      · simp [h1, h2] at he
      · simp [h1, h2] at he
      · simpa [h1, h2] using he
    | _ => cases he
  | fail => cases d' <;> first | rfl | cases he
  | crit => cases d' <;> first | rfl | cases he

/-- the memory `q` is kept up to date, given `ρ` of each rest, and tells what becomes of the text with one more character -/
structure Memory {A Q : Type} (B : Beh) (ρ : Str → A) (q : Str → Q) : Prop where
  fine : ∀ s s', q s = q s' → ρ s = ρ s'
  next : ∀ c s s', q s = q s' → ρ (c :: s) = ρ (c :: s') → q (c :: s) = q (c :: s')
  tells : ∀ c s s', q s = q s' → ∀ x, Lands B ρ (c :: s) x → Lands B ρ (c :: s') x

def Foresees (B : Beh) : Prop := ∀ (A : Type) [Finite A] (ρ : Str → A), ∃ (Q : Type) (_ : Finite Q) (q : Str → Q), Memory B ρ q

theorem Memory.comes {A Q : Type} {B : Beh} {ρ : Str → A} {q : Str → Q} (h : Memory B ρ q) {c s s'} (hq : q s = q s')
    (hρ : ρ (c :: s) = ρ (c :: s')) : {x | Comes B ρ (c :: s) x} = {x | Comes B ρ (c :: s') x} := by
  ext x
  exact ⟨comes_of_lands hρ (h.tells c s s' hq) x, comes_of_lands hρ.symm (h.tells c s' s hq.symm) x⟩

/-! ### Combinations -/

inductive SeqB (B₁ B₂ : Beh) : Beh
  | fail {s} : B₁ s .fail → SeqB B₁ B₂ s .fail
  | crit {s} : B₁ s .crit → SeqB B₁ B₂ s .crit
  | more {s r d} : B₁ s (.ok r) → B₂ r d → SeqB B₁ B₂ s d

inductive AltB (B₁ B₂ : Beh) : Beh
  | ok {s r} : B₁ s (.ok r) → AltB B₁ B₂ s (.ok r)
  | crit {s} : B₁ s .crit → AltB B₁ B₂ s .crit
  | other {s d} : B₁ s .fail → B₂ s d → AltB B₁ B₂ s d

inductive NotB (B : Beh) : Beh
  | ok {s r} : B s (.ok r) → NotB B s .fail
  | fail {s} : B s .fail → NotB B s (.ok s)
  | crit {s} : B s .crit → NotB B s (.ok s)

inductive StarB (B : Beh) : Beh
  | fail {s} : B s .fail → StarB B s (.ok s)
  | crit {s} : B s .crit → StarB B s .crit
  | more {s r d} : B s (.ok r) → r ≠ s → StarB B r d → StarB B s d

/-- the same whatever the text is -/
inductive ConstB (crit : Bool) : Beh
  | ok {s} : crit = false → ConstB crit s (.ok s)
  | crit {s} : crit = true → ConstB crit s .crit

/-- one character -/
inductive CharB (p : Char → Prop) : Beh
  | ok {c s} : p c → CharB p (c :: s) (.ok s)
  | fail {c s} : ¬ p c → CharB p (c :: s) .fail
  | none : CharB p [] .fail

inductive EndB : Beh
  | ok : EndB [] (.ok [])
  | fail {c s} : EndB (c :: s) .fail

theorem shorter {a b s : Str} (h : a <:+ b) (h' : b <:+ s) (hb : b ≠ s) : a ≠ s := by
  rintro rfl
  exact hb (h'.eq_of_length (Nat.le_antisymm h'.length_le h.length_le))

theorem shrinks_seq {B₁ B₂} (h₁ : Shrinks B₁) (h₂ : Shrinks B₂) : Shrinks (SeqB B₁ B₂) := by
  intro s r h
  cases h with
  | more h h' => exact (h₂ _ _ h').trans (h₁ _ _ h)

theorem lands_far {A : Type} {B : Beh} {ρ : Str → A} {s r} (h : B s (.ok r)) (hr : r ≠ s) : Lands B ρ s (.ok (some (ρ r))) :=
  ⟨_, h, by simp [Fate.map, hr]⟩

theorem lands_near {A : Type} {B : Beh} {ρ : Str → A} {s} (h : B s (.ok s)) : Lands B ρ s (.ok none) := ⟨_, h, by simp [Fate.map]⟩

theorem far_of_lands {A : Type} {B : Beh} {ρ : Str → A} {s a} (h : Lands B ρ s (.ok (some a))) : ∃ r, B s (.ok r) ∧ r ≠ s ∧ ρ r = a := by
  obtain ⟨d, h1, h2⟩ := h
  cases d with
  | ok r =>
    simp only [Fate.map, Fate.ok.injEq] at h2
    by_cases hr : r = s
    · simp [hr] at h2
    · exact ⟨r, h1, hr, by simpa [hr, eq_comm] using h2⟩
  | _ => cases h2

theorem near_of_lands {A : Type} {B : Beh} {ρ : Str → A} {s} (h : Lands B ρ s (.ok none)) : B s (.ok s) := by
  obtain ⟨d, h1, h2⟩ := h
  cases d with
  | ok r =>
    simp only [Fate.map, Fate.ok.injEq] at h2
    by_cases hr : r = s
    · rw [hr] at h1; exact h1
    · simp [hr] at h2
  | _ => cases h2

theorem fail_of_lands {A : Type} {B : Beh} {ρ : Str → A} {s} (h : Lands B ρ s .fail) : B s .fail := by
  obtain ⟨d, h1, h2⟩ := h
  cases d with
  | fail => exact h1
  | _ => cases h2

theorem crit_of_lands {A : Type} {B : Beh} {ρ : Str → A} {s} (h : Lands B ρ s .crit) : B s .crit := by
  obtain ⟨d, h1, h2⟩ := h
  cases d with
  | crit => exact h1
  | _ => cases h2

/-- enough to show what becomes of the text, case by case -/
theorem lands_cases {A : Type} {B : Beh} {ρ : Str → A} {s s' : Str} (h1 : ∀ r, B s (.ok r) → r ≠ s → Lands B ρ s' (.ok (some (ρ r))))
    (h2 : B s (.ok s) → B s' (.ok s')) (h3 : B s .fail → B s' .fail) (h4 : B s .crit → B s' .crit) : ∀ x, Lands B ρ s x → Lands B ρ s' x := by
  rintro x ⟨d, hd, rfl⟩
  cases d with
  | ok r =>
    by_cases hr : r = s
    · subst hr
      simpa [Fate.map] using lands_near (h2 hd)
    · simpa [Fate.map, hr] using h1 r hd hr
  | fail => exact ⟨_, h3 hd, rfl⟩
  | crit => exact ⟨_, h4 hd, rfl⟩

theorem foresees_seq {B₁ B₂ : Beh} (s₁ : Shrinks B₁) (s₂ : Shrinks B₂) (h₁ : Foresees B₁) (h₂ : Foresees B₂) : Foresees (SeqB B₁ B₂) := by
  intro A _ ρ
  obtain ⟨Q₂, _, q₂, m₂⟩ := h₂ A ρ
  obtain ⟨Q₁, f₁, q₁, m₁⟩ := h₁ (Q₂ × Set (Fate A)) fun s => (q₂ s, {x | Comes B₂ ρ s x})
  have fine₁ : ∀ s s', q₁ s = q₁ s' → q₂ s = q₂ s' := fun s s' h => (Prod.mk.inj (m₁.fine s s' h)).1
  refine ⟨Q₁, f₁, q₁, fun s s' h => m₂.fine _ _ (fine₁ s s' h), fun c s s' h hρ => m₁.next c s s' h ?_, fun c s s' h => ?_⟩
  · have := fine₁ s s' h
    exact Prod.ext (m₂.next c s s' this hρ) (m₂.comes this hρ)
  · have t₁ := m₁.tells c s s' h
    have t₂ := m₂.tells c s s' (fine₁ s s' h)
    -- the first part stops at a later place
    have later : ∀ r d, B₁ (c :: s) (.ok r) → r ≠ c :: s → B₂ r d → Lands (SeqB B₁ B₂) ρ (c :: s') (d.map fun t => some (ρ t)) := by
      intro r d hr hne hd
      obtain ⟨r', hr', hne', he⟩ := far_of_lands (t₁ _ (lands_far hr hne))
      have hc : Comes B₂ ρ r' (d.map ρ) := by
        have : {x | Comes B₂ ρ r' x} = {x | Comes B₂ ρ r x} := (Prod.mk.inj he).2
        have hm : d.map ρ ∈ {x | Comes B₂ ρ r x} := ⟨d, hd, rfl⟩
        rw [← this] at hm
        exact hm
      obtain ⟨d', hd', hm⟩ := hc
      refine ⟨d', .more hr' hd', ?_⟩
      cases d with
      | ok t =>
        cases d' with
        | ok t' =>
          simp only [Fate.map, Fate.ok.injEq] at hm ⊢
          rw [if_neg (shorter (s₂ _ _ hd') (s₁ _ _ hr') hne'), hm]
        | _ => cases hm
      | fail => cases d' <;> first | rfl | cases hm
      | crit => cases d' <;> first | rfl | cases hm
    refine lands_cases (fun t ht hne => ?_) (fun ht => ?_) (fun ht => ?_) fun ht => ?_
    · cases ht with
      | @more _ r _ hr hd =>
        by_cases hs : r = c :: s
        · subst hs
          have g := near_of_lands (t₁ _ (lands_near hr))
          obtain ⟨t', g', hne', he⟩ := far_of_lands (t₂ _ (lands_far hd hne))
          have := lands_far (ρ := ρ) (SeqB.more g g') hne'
          rwa [he] at this
        · exact later r _ hr hs hd
    · cases ht with
      | @more _ r _ hr hd =>
        by_cases hs : r = c :: s
        · subst hs
          exact .more (near_of_lands (t₁ _ (lands_near hr))) (near_of_lands (t₂ _ (lands_near hd)))
        · exact absurd rfl (shorter (s₂ _ _ hd) (s₁ _ _ hr) hs)
    · cases ht with
      | fail hf => exact .fail (fail_of_lands (t₁ _ ⟨_, hf, rfl⟩))
      | @more _ r _ hr hd =>
        by_cases hs : r = c :: s
        · subst hs
          exact .more (near_of_lands (t₁ _ (lands_near hr))) (fail_of_lands (t₂ _ ⟨_, hd, rfl⟩))
        · exact fail_of_lands (later r _ hr hs hd)
    · cases ht with
      | crit hf => exact .crit (crit_of_lands (t₁ _ ⟨_, hf, rfl⟩))
      | @more _ r _ hr hd =>
        by_cases hs : r = c :: s
        · subst hs
          exact .more (near_of_lands (t₁ _ (lands_near hr))) (crit_of_lands (t₂ _ ⟨_, hd, rfl⟩))
        · exact crit_of_lands (later r _ hr hs hd)

theorem foresees_alt {B₁ B₂ : Beh} (h₁ : Foresees B₁) (h₂ : Foresees B₂) : Foresees (AltB B₁ B₂) := by
  intro A _ ρ
  obtain ⟨Q₁, f₁, q₁, m₁⟩ := h₁ A ρ
  obtain ⟨Q₂, f₂, q₂, m₂⟩ := h₂ A ρ
  refine ⟨Q₁ × Q₂, inferInstance, fun s => (q₁ s, q₂ s), fun s s' h => m₁.fine _ _ (Prod.mk.inj h).1,
    fun c s s' h hρ => Prod.ext (m₁.next c s s' (Prod.mk.inj h).1 hρ) (m₂.next c s s' (Prod.mk.inj h).2 hρ), fun c s s' h => ?_⟩
  have t₁ := m₁.tells c s s' (Prod.mk.inj h).1
  have t₂ := m₂.tells c s s' (Prod.mk.inj h).2
  refine lands_cases (fun t ht hne => ?_) (fun ht => ?_) (fun ht => ?_) fun ht => ?_
  · cases ht with
    | ok g =>
      obtain ⟨r, g', hne', he⟩ := far_of_lands (t₁ _ (lands_far g hne))
      have := lands_far (ρ := ρ) (AltB.ok (B₂ := B₂) g') hne'
      rwa [he] at this
    | other g g' =>
      obtain ⟨r, g2, hne', he⟩ := far_of_lands (t₂ _ (lands_far g' hne))
      have := lands_far (ρ := ρ) (AltB.other (fail_of_lands (t₁ _ ⟨_, g, rfl⟩)) g2) hne'
      rwa [he] at this
  · cases ht with
    | ok g => exact .ok (near_of_lands (t₁ _ (lands_near g)))
    | other g g' => exact .other (fail_of_lands (t₁ _ ⟨_, g, rfl⟩)) (near_of_lands (t₂ _ (lands_near g')))
  · cases ht with
    | other g g' => exact .other (fail_of_lands (t₁ _ ⟨_, g, rfl⟩)) (fail_of_lands (t₂ _ ⟨_, g', rfl⟩))
  · cases ht with
    | crit g => exact .crit (crit_of_lands (t₁ _ ⟨_, g, rfl⟩))
    | other g g' => exact .other (fail_of_lands (t₁ _ ⟨_, g, rfl⟩)) (crit_of_lands (t₂ _ ⟨_, g', rfl⟩))

theorem foresees_not {B : Beh} (h : Foresees B) : Foresees (NotB B) := by
  intro A _ ρ
  obtain ⟨Q, f, q, m⟩ := h A ρ
  refine ⟨Q, f, q, m.fine, m.next, fun c s s' h => ?_⟩
  have t := m.tells c s s' h
  refine lands_cases (fun r hr hne => ?_) (fun hr => ?_) (fun hr => ?_) fun hr => ?_
  · cases hr <;> exact absurd rfl hne
  · cases hr with
    | fail g => exact .fail (fail_of_lands (t _ ⟨_, g, rfl⟩))
    | crit g => exact .crit (crit_of_lands (t _ ⟨_, g, rfl⟩))
  · cases hr with
    | @ok _ r g =>
      by_cases hs : r = c :: s
      · subst hs; exact .ok (near_of_lands (t _ (lands_near g)))
      · obtain ⟨r', g', _⟩ := far_of_lands (t _ (lands_far g hs))
        exact .ok g'
  · cases hr

theorem shrinks_star {B} (h : Shrinks B) : Shrinks (StarB B) := by
  intro s r hr
  generalize hx : Fate.ok r = x at hr
  induction hr with
  | fail => cases hx; exact List.suffix_refl _
  | crit => cases hx
  | more g _ _ ih => exact (ih hx).trans (h _ _ g)

theorem foresees_star {B : Beh} (hs : Shrinks B) (h : Foresees B) : Foresees (StarB B) := by
  intro A _ ρ
  obtain ⟨Q, f, q, m⟩ := h (A × Set (Fate A)) fun s => (ρ s, {x | Comes (StarB B) ρ s x})
  have hf : ∀ s s', q s = q s' → ρ s = ρ s' := fun s s' h => (Prod.mk.inj (m.fine s s' h)).1
  have tells : ∀ c s s', q s = q s' → ∀ x, Lands (StarB B) ρ (c :: s) x → Lands (StarB B) ρ (c :: s') x := by
    intro c s s' h
    have t := m.tells c s s' h
    have later : ∀ r d, B (c :: s) (.ok r) → r ≠ c :: s → StarB B r d → Lands (StarB B) ρ (c :: s') (d.map fun t => some (ρ t)) := by
      intro r d hr hne hd
      obtain ⟨r', hr', hne', he⟩ := far_of_lands (t _ (lands_far hr hne))
      have hc : Comes (StarB B) ρ r' (d.map ρ) := by
        have : {x | Comes (StarB B) ρ r' x} = {x | Comes (StarB B) ρ r x} := (Prod.mk.inj he).2
        have hm : d.map ρ ∈ {x | Comes (StarB B) ρ r x} := ⟨d, hd, rfl⟩
        rw [← this] at hm
        exact hm
      obtain ⟨d', hd', hm⟩ := hc
      refine ⟨d', .more hr' hne' hd', ?_⟩
      cases d with
      | ok t =>
        cases d' with
        | ok t' =>
          simp only [Fate.map, Fate.ok.injEq] at hm ⊢
          rw [if_neg (shorter (shrinks_star hs _ _ hd') (hs _ _ hr') hne'), hm]
        | _ => cases hm
      | fail => cases d' <;> first | rfl | cases hm
      | crit => cases d' <;> first | rfl | cases hm
    refine lands_cases (fun r hr hne => ?_) (fun hr => ?_) (fun hr => ?_) fun hr => ?_
    · cases hr with
      | fail => exact absurd rfl hne
      | more g hg g' => exact later _ _ g hg g'
    · cases hr with
      | fail g => exact .fail (fail_of_lands (t _ ⟨_, g, rfl⟩))
      | more g hg g' => exact absurd rfl (shorter (shrinks_star hs _ _ g') (hs _ _ g) hg)
    · cases hr with
      | more g hg g' => exact fail_of_lands (later _ _ g hg g')
    · cases hr with
      | crit g => exact .crit (crit_of_lands (t _ ⟨_, g, rfl⟩))
      | more g hg g' => exact crit_of_lands (later _ _ g hg g')
  refine ⟨Q, f, q, hf, fun c s s' h hρ => m.next c s s' h (Prod.ext hρ ?_), tells⟩
  ext x
  exact ⟨comes_of_lands hρ (tells c s s' h) x, comes_of_lands hρ.symm (tells c s' s h.symm) x⟩

theorem foresees_const (b : Bool) : Foresees (ConstB b) := by
  intro A _ ρ
  refine ⟨A, inferInstance, ρ, fun _ _ h => h, fun _ _ _ _ h => h, fun c s s' h => ?_⟩
  refine lands_cases (fun r hr hne => ?_) (fun hr => ?_) (fun hr => ?_) fun hr => ?_
  · cases hr; exact absurd rfl hne
  · cases hr with | ok g => exact .ok g
  · cases hr
  · cases hr with | crit g => exact .crit g

theorem foresees_char (p : Char → Prop) : Foresees (CharB p) := by
  intro A _ ρ
  refine ⟨A, inferInstance, ρ, fun _ _ h => h, fun _ _ _ _ h => h, fun c s s' h => ?_⟩
  refine lands_cases (fun r hr hne => ?_) (fun hr => ?_) (fun hr => ?_) fun hr => ?_
  · cases hr with
    | ok g =>
      rw [h]
      exact lands_far (.ok g) (by simp)
  · generalize hx : Fate.ok (c :: s) = x at hr
    cases hr with
    | ok g => simp at hx
    | _ => cases hx
  · cases hr with | fail g => exact .fail g
  · cases hr

theorem foresees_end : Foresees EndB := by
  intro A _ ρ
  refine ⟨A, inferInstance, ρ, fun _ _ h => h, fun _ _ _ _ h => h, fun c s s' h => ?_⟩
  refine lands_cases (fun r hr hne => ?_) (fun hr => ?_) (fun hr => ?_) fun hr => ?_
  · cases hr
  · cases hr
  · exact .fail
  · cases hr

/-! ### Expressions -/

variable {G : Str → Option Expr}

def behOf (G : Str → Option Expr) (e : Expr) : Beh
  | s, .ok r => ∃ ns, Peg G e s (.ok r ns)
  | s, .fail => Peg G e s .fail
  | s, .crit => ∃ w q, Peg G e s (.crit w q)

theorem shrinks_of (e : Expr) : Shrinks (behOf G e) := fun _ _ ⟨_, h⟩ => peg_suffix h rfl

theorem beh_ext {B B' : Beh} (h1 : ∀ s r, B s (.ok r) ↔ B' s (.ok r)) (h2 : ∀ s, B s .fail ↔ B' s .fail) (h3 : ∀ s, B s .crit ↔ B' s .crit) : B = B' := by
  funext s d
  cases d with
  | ok r => exact propext (h1 s r)
  | fail => exact propext (h2 s)
  | crit => exact propext (h3 s)

theorem beh_and_nil : behOf G (.and []) = ConstB false := by
  refine beh_ext (fun s r => ⟨?_, ?_⟩) (fun s => ⟨?_, ?_⟩) fun s => ⟨?_, ?_⟩
  · rintro ⟨ns, h⟩; cases h; exact .ok rfl
  · intro h; cases h; exact ⟨_, .and_nil _⟩
  · intro h; cases h
  · intro h; cases h
  · rintro ⟨w, q, h⟩; cases h
  · intro h; cases h with | crit h => cases h

theorem beh_and (e es) : behOf G (.and (e :: es)) = SeqB (behOf G e) (behOf G (.and es)) := by
  refine beh_ext (fun s r => ⟨?_, ?_⟩) (fun s => ⟨?_, ?_⟩) fun s => ⟨?_, ?_⟩
  · rintro ⟨ns, h⟩; cases h with | and_ok h h' => exact .more ⟨_, h⟩ ⟨_, h'⟩
  · intro h; cases h with | more h h' => obtain ⟨_, h⟩ := h; obtain ⟨_, h'⟩ := h'; exact ⟨_, .and_ok h h'⟩
  · intro h
    cases h with
    | and_fail h => exact .fail h
    | and_tail_fail h h' => exact .more ⟨_, h⟩ h'
  · intro h
    cases h with
    | fail h => exact .and_fail h
    | more h h' => obtain ⟨_, h⟩ := h; exact .and_tail_fail h h'
  · rintro ⟨w, q, h⟩
    cases h with
    | and_crit h => exact .crit ⟨_, _, h⟩
    | and_tail_crit h h' => exact .more ⟨_, h⟩ ⟨_, _, h'⟩
  · intro h
    cases h with
    | crit h => obtain ⟨_, _, h⟩ := h; exact ⟨_, _, .and_crit h⟩
    | more h h' => obtain ⟨_, h⟩ := h; obtain ⟨_, _, h'⟩ := h'; exact ⟨_, _, .and_tail_crit h h'⟩

/-- fails on every text -/
theorem beh_or_nil : behOf G (.or []) = NotB (ConstB false) := by
  refine beh_ext (fun s r => ⟨?_, ?_⟩) (fun s => ⟨?_, ?_⟩) fun s => ⟨?_, ?_⟩
  · rintro ⟨ns, h⟩; cases h
  · intro h
    cases h with
    | fail h => cases h
    | crit h => cases h with | crit h => cases h
  · intro _; exact .ok (.ok rfl)
  · intro _; exact .or_nil _
  · rintro ⟨w, q, h⟩; cases h
  · intro h; cases h

theorem beh_or (e es) : behOf G (.or (e :: es)) = AltB (behOf G e) (behOf G (.or es)) := by
  refine beh_ext (fun s r => ⟨?_, ?_⟩) (fun s => ⟨?_, ?_⟩) fun s => ⟨?_, ?_⟩
  · rintro ⟨ns, h⟩
    cases h with
    | or_ok h => exact .ok ⟨_, h⟩
    | or_next h h' => exact .other h ⟨_, h'⟩
  · intro h
    cases h with
    | ok h => obtain ⟨_, h⟩ := h; exact ⟨_, .or_ok h⟩
    | other h h' => obtain ⟨_, h'⟩ := h'; exact ⟨_, .or_next h h'⟩
  · intro h; cases h with | or_next h h' => exact .other h h'
  · intro h; cases h with | other h h' => exact .or_next h h'
  · rintro ⟨w, q, h⟩
    cases h with
    | or_crit h => exact .crit ⟨_, _, h⟩
    | or_next h h' => exact .other h ⟨_, _, h'⟩
  · intro h
    cases h with
    | crit h => obtain ⟨_, _, h⟩ := h; exact ⟨_, _, .or_crit h⟩
    | other h h' => obtain ⟨_, _, h'⟩ := h'; exact ⟨_, _, .or_next h h'⟩

theorem beh_not (e) : behOf G (.not e) = NotB (behOf G e) := by
  refine beh_ext (fun s r => ⟨?_, ?_⟩) (fun s => ⟨?_, ?_⟩) fun s => ⟨?_, ?_⟩
  · rintro ⟨ns, h⟩
    cases h with
    | not_fail h => exact .fail h
    | not_crit h => exact .crit ⟨_, _, h⟩
  · intro h
    cases h with
    | fail h => exact ⟨_, .not_fail h⟩
    | crit h => obtain ⟨_, _, h⟩ := h; exact ⟨_, .not_crit h⟩
  · intro h; cases h with | not_ok h => exact .ok ⟨_, h⟩
  · intro h; cases h with | ok h => obtain ⟨_, h⟩ := h; exact .not_ok h
  · rintro ⟨w, q, h⟩; cases h
  · intro h; cases h

theorem beh_call {n e} (hg : G n = some e) : behOf G (.ruleName n) = behOf G e := by
  refine beh_ext (fun s r => ⟨?_, ?_⟩) (fun s => ⟨?_, ?_⟩) fun s => ⟨?_, ?_⟩
  · rintro ⟨ns, h⟩; cases h with | call_ok h h' => rw [hg] at h; cases h; exact ⟨_, h'⟩
  · rintro ⟨ns, h⟩; exact ⟨_, .call_ok hg h⟩
  · intro h; cases h with | call_fail h h' => rw [hg] at h; cases h; exact h'
  · intro h; exact Peg.call_fail hg h
  · rintro ⟨w, q, h⟩
    cases h with
    | call_crit h h' => rw [hg] at h; cases h; exact ⟨_, _, h'⟩
    | call_missing h => rw [hg] at h; cases h
  · rintro ⟨w, q, h⟩; exact ⟨_, _, .call_crit hg h⟩

theorem beh_missing {n} (hg : G n = none) : behOf G (.ruleName n) = ConstB true := by
  refine beh_ext (fun s r => ⟨?_, ?_⟩) (fun s => ⟨?_, ?_⟩) fun s => ⟨?_, ?_⟩
  · rintro ⟨ns, h⟩; cases h with | call_ok h h' => rw [hg] at h; cases h
  · intro h; cases h with | ok h => cases h
  · intro h; cases h with | call_fail h h' => rw [hg] at h; cases h
  · intro h; cases h
  · intro _; exact .crit rfl
  · intro _; exact ⟨_, _, .call_missing hg⟩

theorem beh_dot : behOf G (.simple .dot) = CharB fun _ => True := by
  refine beh_ext (fun s r => ⟨?_, ?_⟩) (fun s => ⟨?_, ?_⟩) fun s => ⟨?_, ?_⟩
  · rintro ⟨ns, h⟩; cases h; exact .ok trivial
  · intro h; cases h; exact ⟨_, .dot_ok _ _⟩
  · intro h; cases h; exact .none
  · intro h; cases h with | fail h => exact absurd trivial h | none => exact .dot_end
  · rintro ⟨w, q, h⟩; cases h
  · intro h; cases h

theorem beh_class (cs rs) : behOf G (.simple (.mtch cs rs)) = CharB (InClass cs rs) := by
  refine beh_ext (fun s r => ⟨?_, ?_⟩) (fun s => ⟨?_, ?_⟩) fun s => ⟨?_, ?_⟩
  · rintro ⟨ns, h⟩; cases h with | class_ok _ _ _ _ h => exact .ok h
  · intro h; cases h with | ok h => exact ⟨_, .class_ok _ _ _ _ h⟩
  · intro h
    cases h with
    | class_fail _ _ _ _ h => exact .fail h
    | class_end => exact .none
  · intro h; cases h with | fail h => exact .class_fail _ _ _ _ h | none => exact .class_end _ _
  · rintro ⟨w, q, h⟩; cases h
  · intro h; cases h

theorem beh_eof : behOf G (.simple .eof) = EndB := by
  refine beh_ext (fun s r => ⟨?_, ?_⟩) (fun s => ⟨?_, ?_⟩) fun s => ⟨?_, ?_⟩
  · rintro ⟨ns, h⟩; cases h; exact .ok
  · intro h; cases h; exact ⟨_, .eof_ok⟩
  · intro h; cases h; exact .fail
  · intro h; cases h; exact .eof_fail _ _
  · rintro ⟨w, q, h⟩; cases h
  · intro h; cases h

theorem beh_error (m) : behOf G (.simple (.error m)) = ConstB true := by
  refine beh_ext (fun s r => ⟨?_, ?_⟩) (fun s => ⟨?_, ?_⟩) fun s => ⟨?_, ?_⟩
  · rintro ⟨ns, h⟩; cases h
  · intro h; cases h with | ok h => cases h
  · intro h; cases h
  · intro h; cases h
  · intro _; exact .crit rfl
  · intro _; exact ⟨_, _, .error _ _⟩

theorem beh_lit_nil : behOf G (.simple (.literal [])) = ConstB false := by
  refine beh_ext (fun s r => ⟨?_, ?_⟩) (fun s => ⟨?_, ?_⟩) fun s => ⟨?_, ?_⟩
  · rintro ⟨ns, h⟩
    obtain ⟨rfl, _⟩ := inv_lit h
    exact .ok rfl
  · intro h; cases h; exact ⟨_, .lit_ok [] _⟩
  · intro h; cases h with | lit_fail _ _ h => exact absurd List.nil_prefix h
  · intro h; cases h
  · rintro ⟨w, q, h⟩; cases h
  · intro h; cases h with | crit h => cases h

theorem beh_lit (c l) : behOf G (.simple (.literal (c :: l))) = SeqB (CharB (· = c)) (behOf G (.simple (.literal l))) := by
  refine beh_ext (fun s r => ⟨?_, ?_⟩) (fun s => ⟨?_, ?_⟩) fun s => ⟨?_, ?_⟩
  · rintro ⟨ns, h⟩
    obtain ⟨rfl, _⟩ := inv_lit h
    exact .more (.ok rfl) ⟨_, .lit_ok _ _⟩
  · intro h
    cases h with
    | more h h' =>
      cases h with
      | ok h =>
        subst h
        obtain ⟨_, h'⟩ := h'
        obtain ⟨rfl, _⟩ := inv_lit h'
        exact ⟨_, .lit_ok (_ :: _) _⟩
  · intro h
    cases h with
    | lit_fail _ _ h =>
      cases s with
      | nil => exact .fail .none
      | cons d s =>
        by_cases hd : d = c
        · subst hd
          exact .more (.ok rfl) (Peg.lit_fail _ _ fun hp => h (List.cons_prefix_cons.2 ⟨rfl, hp⟩))
        · exact .fail (.fail hd)
  · intro h
    refine .lit_fail _ _ fun hp => ?_
    cases h with
    | fail h =>
      cases h with
      | fail h => exact h (List.cons_prefix_cons.1 hp).1.symm
      | none => simp at hp
    | more h h' =>
      cases h with
      | ok h => cases h' with | lit_fail _ _ h' => exact h' (List.cons_prefix_cons.1 hp).2
  · rintro ⟨w, q, h⟩; cases h
  · intro h
    cases h with
    | crit h => cases h
    | more h h' => obtain ⟨_, _, h'⟩ := h'; cases h'

theorem beh_rep_full (e mn) : behOf G (.rep e mn (some 0)) = ConstB false := by
  refine beh_ext (fun s r => ⟨?_, ?_⟩) (fun s => ⟨?_, ?_⟩) fun s => ⟨?_, ?_⟩
  · rintro ⟨ns, h⟩
    cases h with
    | rep_full => exact .ok rfl
    | rep_more h => exact absurd rfl h
    | rep_stop h => exact absurd rfl h
  · intro h; cases h; exact ⟨_, .rep_full _ _ _⟩
  · intro h; cases h <;> contradiction
  · intro h; cases h
  · rintro ⟨w, q, h⟩; cases h <;> contradiction
  · intro h; cases h with | crit h => cases h

/-- one more pass that is needed -/
theorem beh_rep_more (e mn mx) (hx : mx ≠ some 0) :
    behOf G (.rep e (mn + 1) mx) = SeqB (behOf G e) (behOf G (.rep e mn (mx.map (· - 1)))) := by
  refine beh_ext (fun s r => ⟨?_, ?_⟩) (fun s => ⟨?_, ?_⟩) fun s => ⟨?_, ?_⟩
  · rintro ⟨ns, h⟩
    cases h with
    | rep_full => exact absurd rfl hx
    | rep_more _ h h' => exact .more ⟨_, h⟩ ⟨_, h'⟩
  · intro h; cases h with | more h h' => obtain ⟨_, h⟩ := h; obtain ⟨_, h'⟩ := h'; exact ⟨_, .rep_more hx h h'⟩
  · intro h
    cases h with
    | rep_few _ _ h => exact .fail h
    | rep_more_fail _ h h' => exact .more ⟨_, h⟩ h'
  · intro h
    cases h with
    | fail h => exact .rep_few hx (Nat.succ_pos _) h
    | more h h' => obtain ⟨_, h⟩ := h; exact .rep_more_fail hx h h'
  · rintro ⟨w, q, h⟩
    cases h with
    | rep_crit _ h => exact .crit ⟨_, _, h⟩
    | rep_more_crit _ h h' => exact .more ⟨_, h⟩ ⟨_, _, h'⟩
  · intro h
    cases h with
    | crit h => obtain ⟨_, _, h⟩ := h; exact ⟨_, _, .rep_crit hx h⟩
    | more h h' => obtain ⟨_, h⟩ := h; obtain ⟨_, _, h'⟩ := h'; exact ⟨_, _, .rep_more_crit hx h h'⟩

theorem rep_never_fails {e mx s} : ¬ Peg G (.rep e 0 mx) s .fail := by
  intro h
  generalize hx : Expr.rep e 0 mx = x at h
  generalize ho : Outcome.fail = o at h
  induction h generalizing mx with
  | rep_few _ h => cases hx; omega
  | rep_more_fail _ _ _ _ ih => cases hx; exact ih rfl rfl
  | rep_full => cases ho
  | rep_more => cases ho
  | rep_stop => cases ho
  | rep_crit => cases ho
  | rep_more_crit => cases ho
  | _ => cases hx

/-- one more pass that is not needed -/
theorem beh_rep_maybe (e m) :
    behOf G (.rep e 0 (some (m + 1))) = AltB (SeqB (behOf G e) (behOf G (.rep e 0 (some m)))) (ConstB false) := by
  refine beh_ext (fun s r => ⟨?_, ?_⟩) (fun s => ⟨?_, ?_⟩) fun s => ⟨?_, ?_⟩
  · rintro ⟨ns, h⟩
    cases h with
    | rep_more _ h h' => exact .ok (.more ⟨_, h⟩ ⟨_, h'⟩)
    | rep_stop _ h => exact .other (.fail h) (.ok rfl)
  · intro h
    cases h with
    | ok h => cases h with | more h h' => obtain ⟨_, h⟩ := h; obtain ⟨_, h'⟩ := h'; exact ⟨_, .rep_more (by simp) h h'⟩
    | other h h' =>
      cases h' with
      | ok =>
        cases h with
        | fail h => exact ⟨_, .rep_stop (by simp) h⟩
        | more _ h => exact absurd h rep_never_fails
  · intro h; exact absurd h rep_never_fails
  · intro h; cases h with | other _ h => cases h
  · rintro ⟨w, q, h⟩
    cases h with
    | rep_crit _ h => exact .crit (.crit ⟨_, _, h⟩)
    | rep_more_crit _ h h' => exact .crit (.more ⟨_, h⟩ ⟨_, _, h'⟩)
  · intro h
    cases h with
    | crit h =>
      cases h with
      | crit h => obtain ⟨_, _, h⟩ := h; exact ⟨_, _, .rep_crit (by simp) h⟩
      | more h h' => obtain ⟨_, h⟩ := h; obtain ⟨_, _, h'⟩ := h'; exact ⟨_, _, .rep_more_crit (by simp) h h'⟩
    | other _ h => cases h with | crit h => cases h

theorem beh_star (e) : behOf G (.rep e 0 none) = StarB (behOf G e) := by
  have forth : ∀ {s o}, Peg G (.rep e 0 none) s o → ∀ d, behOf G (.rep e 0 none) s d → StarB (behOf G e) s d := by
    intro s o h
    generalize hx : Expr.rep e 0 none = x at h
    have stay : ∀ {s r ns o}, Peg G e s (.ok r ns) → Peg G (.rep e 0 none) r o → r ≠ s := by
      rintro s r ns o h h' rfl
      exact no_idle h h'
    induction h with
    | rep_full => cases hx
    | rep_stop hx' h1 =>
      cases hx
      rintro (r | _ | _) hd
      · obtain ⟨_, hd⟩ := hd
        cases peg_det (.rep_stop hx' h1) hd
        exact .fail h1
      · exact absurd hd rep_never_fails
      · obtain ⟨_, _, hd⟩ := hd
        cases peg_det (.rep_stop hx' h1) hd
    | rep_crit hx' h1 =>
      cases hx
      rintro (r | _ | _) hd
      · obtain ⟨_, hd⟩ := hd
        cases peg_det (.rep_crit hx' h1) hd
      · exact absurd hd rep_never_fails
      · exact .crit ⟨_, _, h1⟩
    | rep_more hx' h1 h2 _ ih =>
      cases hx
      rintro (r | _ | _) hd
      · obtain ⟨_, hd⟩ := hd
        cases peg_det (.rep_more hx' h1 h2) hd
        exact .more ⟨_, h1⟩ (stay h1 h2) (ih rfl _ ⟨_, h2⟩)
      · exact absurd hd rep_never_fails
      · obtain ⟨_, _, hd⟩ := hd
        cases peg_det (.rep_more hx' h1 h2) hd
    | rep_more_crit hx' h1 h2 _ ih =>
      cases hx
      rintro (r | _ | _) hd
      · obtain ⟨_, hd⟩ := hd
        cases peg_det (.rep_more_crit hx' h1 h2) hd
      · exact absurd hd rep_never_fails
      · exact .more ⟨_, h1⟩ (stay h1 h2) (ih rfl _ ⟨_, _, h2⟩)
    | rep_few _ h => cases hx; omega
    | rep_more_fail _ h1 h2 => cases hx; exact absurd h2 rep_never_fails
    | _ => cases hx
  have back : ∀ s d, StarB (behOf G e) s d → behOf G (.rep e 0 none) s d := by
    intro s d h
    induction h with
    | fail h => exact ⟨_, .rep_stop (by simp) h⟩
    | crit h => obtain ⟨_, _, h⟩ := h; exact ⟨_, _, .rep_crit (by simp) h⟩
    | @more s r d h _ _ ih =>
      obtain ⟨_, h⟩ := h
      cases d with
      | ok t => obtain ⟨_, ih⟩ := ih; exact ⟨_, .rep_more (by simp) h ih⟩
      | fail => exact absurd ih rep_never_fails
      | crit => obtain ⟨_, _, ih⟩ := ih; exact ⟨_, _, .rep_more_crit (by simp) h ih⟩
  funext s d
  refine propext ⟨fun h => ?_, back s d⟩
  cases d with
  | ok r => obtain ⟨ns, h'⟩ := h; exact forth h' _ ⟨_, h'⟩
  | fail => exact absurd h rep_never_fails
  | crit => obtain ⟨w, q, h'⟩ := h; exact forth h' _ ⟨_, _, h'⟩

theorem shrinks_char (p) : Shrinks (CharB p) := by
  intro s r h; cases h; exact List.suffix_cons _ _

theorem foresees_lit (l : Str) : Foresees (behOf G (.simple (.literal l))) := by
  induction l with
  | nil => rw [beh_lit_nil]; exact foresees_const _
  | cons c l ih => rw [beh_lit]; exact foresees_seq (shrinks_char _) (shrinks_of _) (foresees_char _) ih

theorem foresees_simple (a : Atom) : Foresees (behOf G (.simple a)) := by
  cases a with
  | literal l => exact foresees_lit l
  | mtch cs rs => rw [beh_class]; exact foresees_char _
  | dot => rw [beh_dot]; exact foresees_char _
  | eof => rw [beh_eof]; exact foresees_end
  | error m => rw [beh_error]; exact foresees_const _

theorem foresees_rep {e} (h : Foresees (behOf G e)) (mn mx) : Foresees (behOf G (.rep e mn mx)) := by
  cases mx with
  | some m =>
    induction m generalizing mn with
    | zero => rw [beh_rep_full]; exact foresees_const _
    | succ m ih =>
      cases mn with
      | zero => rw [beh_rep_maybe]; exact foresees_alt (foresees_seq (shrinks_of _) (shrinks_of _) h (ih 0)) (foresees_const _)
      | succ mn => rw [beh_rep_more _ _ _ (by simp)]; exact foresees_seq (shrinks_of _) (shrinks_of _) h (ih mn)
  | none =>
    induction mn with
    | zero => rw [beh_star]; exact foresees_star (shrinks_of _) h
    | succ mn ih => rw [beh_rep_more _ _ _ (by simp)]; exact foresees_seq (shrinks_of _) (shrinks_of _) h ih

mutual
/-- an expression that calls only rules that are foreseen -/
theorem foresees_refs : ∀ e, (∀ m, Refs e m → Foresees (behOf G (.ruleName m))) → Foresees (behOf G e)
  | .simple a, _ => foresees_simple a
  | .and es, h => foresees_ands es fun m hm => h m hm
  | .or es, h => foresees_ors es fun m hm => h m hm
  | .not e, h => by rw [beh_not]; exact foresees_not (foresees_refs e fun m hm => h m (.not hm))
  | .rep e mn mx, h => foresees_rep (foresees_refs e fun m hm => h m (.rep hm)) mn mx
  | .ruleName n, h => h n (.here n)
theorem foresees_ands : ∀ es, (∀ m, Refs (.and es) m → Foresees (behOf G (.ruleName m))) → Foresees (behOf G (.and es))
  | [], _ => by rw [beh_and_nil]; exact foresees_const _
  | e :: es, h => by
    rw [beh_and]
    refine foresees_seq (shrinks_of _) (shrinks_of _) (foresees_refs e fun m hm => h m (.and List.mem_cons_self hm)) (foresees_ands es fun m hm => h m ?_)
    cases hm with | and hx hm => exact .and (List.mem_cons_of_mem _ hx) hm
theorem foresees_ors : ∀ es, (∀ m, Refs (.or es) m → Foresees (behOf G (.ruleName m))) → Foresees (behOf G (.or es))
  | [], _ => by rw [beh_or_nil]; exact foresees_not (foresees_const _)
  | e :: es, h => by
    rw [beh_or]
    refine foresees_alt (foresees_refs e fun m hm => h m (.or List.mem_cons_self hm)) (foresees_ors es fun m hm => h m ?_)
    cases hm with | or hx hm => exact .or (List.mem_cons_of_mem _ hx) hm
end

/-! ### Recursion in last position -/

/-- with an expression, what is left of it later -/
structure PartsClosed (L : List Expr) : Prop where
  and : ∀ e es, Expr.and (e :: es) ∈ L → e ∈ L ∧ .and es ∈ L
  or : ∀ e es, Expr.or (e :: es) ∈ L → e ∈ L ∧ .or es ∈ L
  not : ∀ e, Expr.not e ∈ L → e ∈ L
  rep : ∀ e mn mx, Expr.rep e mn mx ∈ L → e ∈ L

theorem partsClosed_append {L L' : List Expr} (h : PartsClosed L) (h' : PartsClosed L') : PartsClosed (L ++ L') where
  and e es he := by
    rcases List.mem_append.1 he with he | he
    · have := h.and e es he; simp [this]
    · have := h'.and e es he; simp [this]
  or e es he := by
    rcases List.mem_append.1 he with he | he
    · have := h.or e es he; simp [this]
    · have := h'.or e es he; simp [this]
  not e he := by
    rcases List.mem_append.1 he with he | he
    · have := h.not e he; simp [this]
    · have := h'.not e he; simp [this]
  rep e mn mx he := by
    rcases List.mem_append.1 he with he | he
    · have := h.rep e mn mx he; simp [this]
    · have := h'.rep e mn mx he; simp [this]

mutual
theorem parts_of : ∀ e : Expr, ∃ L, e ∈ L ∧ PartsClosed L
  | .simple a => ⟨[.simple a], by simp, by constructor <;> simp⟩
  | .ruleName n => ⟨[.ruleName n], by simp, by constructor <;> simp⟩
  | .and es => parts_and es
  | .or es => parts_or es
  | .not e => by
    obtain ⟨L, h1, h2⟩ := parts_of e
    refine ⟨.not e :: L, by simp, ?_⟩
    constructor
    · intro x xs h; have := h2.and x xs (by simpa using h); simp [this]
    · intro x xs h; have := h2.or x xs (by simpa using h); simp [this]
    · intro x h
      simp only [List.mem_cons, Expr.not.injEq] at h
      rcases h with rfl | h
      · simp [h1]
      · simp [h2.not x h]
    · intro x mn mx h; have := h2.rep x mn mx (by simpa using h); simp [this]
  | .rep e mn mx => by
    obtain ⟨L, h1, h2⟩ := parts_of e
    refine ⟨.rep e mn mx :: L, by simp, ?_⟩
    constructor
    · intro x xs h; have := h2.and x xs (by simpa using h); simp [this]
    · intro x xs h; have := h2.or x xs (by simpa using h); simp [this]
    · intro x h; have := h2.not x (by simpa using h); simp [this]
    · intro x a b h
      simp only [List.mem_cons, Expr.rep.injEq] at h
      rcases h with ⟨rfl, _⟩ | h
      · simp [h1]
      · simp [h2.rep x a b h]
theorem parts_and : ∀ es : List Expr, ∃ L, .and es ∈ L ∧ PartsClosed L
  | [] => ⟨[.and []], by simp, by constructor <;> simp⟩
  | e :: es => by
    obtain ⟨L, h1, h2⟩ := parts_of e
    obtain ⟨L', h3, h4⟩ := parts_and es
    have h5 := partsClosed_append h2 h4
    refine ⟨.and (e :: es) :: (L ++ L'), by simp, ?_⟩
    constructor
    · intro x xs h
      rcases List.mem_cons.1 h with h | h
      · cases h; simp [h1, h3]
      · have := h5.and x xs h; exact ⟨List.mem_cons_of_mem _ this.1, List.mem_cons_of_mem _ this.2⟩
    · intro x xs h
      rcases List.mem_cons.1 h with h | h
      · cases h
      · have := h5.or x xs h; exact ⟨List.mem_cons_of_mem _ this.1, List.mem_cons_of_mem _ this.2⟩
    · intro x h
      rcases List.mem_cons.1 h with h | h
      · cases h
      · exact List.mem_cons_of_mem _ (h5.not x h)
    · intro x a b h
      rcases List.mem_cons.1 h with h | h
      · cases h
      · exact List.mem_cons_of_mem _ (h5.rep x a b h)
theorem parts_or : ∀ es : List Expr, ∃ L, .or es ∈ L ∧ PartsClosed L
  | [] => ⟨[.or []], by simp, by constructor <;> simp⟩
  | e :: es => by
    obtain ⟨L, h1, h2⟩ := parts_of e
    obtain ⟨L', h3, h4⟩ := parts_or es
    have h5 := partsClosed_append h2 h4
    refine ⟨.or (e :: es) :: (L ++ L'), by simp, ?_⟩
    constructor
    · intro x xs h
      rcases List.mem_cons.1 h with h | h
      · cases h
      · have := h5.and x xs h; exact ⟨List.mem_cons_of_mem _ this.1, List.mem_cons_of_mem _ this.2⟩
    · intro x xs h
      rcases List.mem_cons.1 h with h | h
      · cases h; simp [h1, h3]
      · have := h5.or x xs h; exact ⟨List.mem_cons_of_mem _ this.1, List.mem_cons_of_mem _ this.2⟩
    · intro x h
      rcases List.mem_cons.1 h with h | h
      · cases h
      · exact List.mem_cons_of_mem _ (h5.not x h)
    · intro x a b h
      rcases List.mem_cons.1 h with h | h
      · cases h
      · exact List.mem_cons_of_mem _ (h5.rep x a b h)
end

theorem parts_of_all : ∀ es : List Expr, ∃ L, (∀ e ∈ es, e ∈ L) ∧ PartsClosed L
  | [] => ⟨[], by simp, by constructor <;> simp⟩
  | e :: es => by
    obtain ⟨L, h1, h2⟩ := parts_of e
    obtain ⟨L', h3, h4⟩ := parts_of_all es
    refine ⟨L ++ L', fun x hx => ?_, partsClosed_append h2 h4⟩
    rcases List.mem_cons.1 hx with rfl | hx
    · exact List.mem_append_left _ h1
    · exact List.mem_append_right _ (h3 x hx)

def fateOf : Outcome → Fate Str
  | .ok r _ => .ok r
  | .fail => .fail
  | .crit _ _ => .crit

theorem behOf_iff {e s d} : behOf G e s d ↔ ∃ o, Peg G e s o ∧ fateOf o = d := by
  cases d with
  | ok r =>
    constructor
    · rintro ⟨ns, h⟩; exact ⟨_, h, rfl⟩
    · rintro ⟨o, h, ho⟩
      cases o <;> cases ho
      exact ⟨_, h⟩
  | fail =>
    constructor
    · intro h; exact ⟨_, h, rfl⟩
    · rintro ⟨o, h, ho⟩
      cases o <;> cases ho
      exact h
  | crit =>
    constructor
    · rintro ⟨w, q, h⟩; exact ⟨_, h, rfl⟩
    · rintro ⟨o, h, ho⟩
      cases o <;> cases ho
      exact ⟨_, _, h⟩

theorem lands_same {A : Type} {B B' : Beh} {ρ : Str → A} {s x} (hb : ∀ d, B s d → B' s d) (h : Lands B ρ s x) : Lands B' ρ s x := by
  obtain ⟨d, h1, h2⟩ := h
  exact ⟨d, hb d h1, h2⟩

theorem lands_ok {A : Type} {B B' : Beh} {ρ : Str → A} {s y} (hb : ∀ r, B s (.ok r) → B' s (.ok r)) (h : Lands B ρ s (.ok y)) : Lands B' ρ s (.ok y) := by
  obtain ⟨d, h1, h2⟩ := h
  cases d with
  | ok r => exact ⟨_, hb r h1, h2⟩
  | _ => cases h2

theorem ok_of_lands {A : Type} {B : Beh} {ρ : Str → A} {s y} (h : Lands B ρ s (.ok y)) : ∃ r, B s (.ok r) := by
  obtain ⟨d, h1, h2⟩ := h
  cases d with
  | ok r => exact ⟨_, h1⟩
  | _ => cases h2

theorem low_part {low : Str → Prop} {e es} (h : ∀ m, Refs (.and (e :: es)) m → low m) : ∀ m, Refs e m → low m := fun m hm => h m (.and List.mem_cons_self hm)

/-- the rules `T` call each other in last position only -/
theorem foresees_tail {T : Str → Prop} {low : Str → Prop} {L : List Expr} (hL : PartsClosed L)
    (hlow : ∀ m, low m → Foresees (behOf G (.ruleName m)))
    (hT : ∀ n e, T n → G n = some e → e ∈ L ∧ TailCalls T low e) {e} (heL : e ∈ L) (he : TailCalls T low e) : Foresees (behOf G e) := by
  classical
  have hlows : ∀ {e}, (∀ m, Refs e m → low m) → Foresees (behOf G e) := fun {e} h => foresees_refs e fun m hm => hlow m (h m hm)
  intro A _ ρ
  let P := {x // x ∈ L ∧ TailCalls T low x}
  have hfin : Finite P := ((List.finite_toSet L).subset fun x (hx : x ∈ L ∧ TailCalls T low x) => hx.1).to_subtype
  let σ : Str → A × (P → Set (Fate A)) := fun s => (ρ s, fun x => {y | Comes (behOf G x.1) ρ s y})
  let F := {x : P // Foresees (behOf G x.1)}
  let Q : F → Type := fun x => (x.2 _ σ).choose
  have hQ : ∀ x, Finite (Q x) := fun x => (x.2 _ σ).choose_spec.choose
  let q : ∀ x, Str → Q x := fun x => (x.2 _ σ).choose_spec.choose_spec.choose
  have m : ∀ x, Memory (behOf G x.1.1) σ (q x) := fun x => (x.2 _ σ).choose_spec.choose_spec.choose_spec
  let q' : Str → (A × (P → Set (Fate A))) × (∀ x, Q x) := fun s => (σ s, fun x => q x s)
  have fine : ∀ {s s'}, q' s = q' s' → σ s = σ s' := fun h => (Prod.mk.inj h).1
  have part : ∀ {s s'}, q' s = q' s' → ∀ x, q x s = q x s' := fun h x => congrFun (Prod.mk.inj h).2 x
  have flat' : ∀ {e c s s'}, e ∈ L → (∀ m, Refs e m → low m) → q' s = q' s' → ∀ x, Lands (behOf G e) σ (c :: s) x → Lands (behOf G e) σ (c :: s') x :=
    fun {e c s s'} h1 h2 h3 => (m ⟨⟨e, h1, .low h2⟩, hlows h2⟩).tells c s s' (part h3 _)
  have flat : ∀ {e c s s'}, e ∈ L → (∀ m, Refs e m → low m) → q' s = q' s' → ∀ {o}, Peg G e (c :: s) o →
      Lands (behOf G e) ρ (c :: s') ((fateOf o).map fun r => if r = c :: s then none else some (ρ r)) := by
    intro e c s s' h1 h2 h3 o ho
    refine lands_cases (s := c :: s) (fun r hr hne => ?_) (fun hr => ?_) (fun hr => ?_) (fun hr => ?_) _ ⟨fateOf o, behOf_iff.2 ⟨o, ho, rfl⟩, rfl⟩
    · obtain ⟨r', g, hne', hr'⟩ := far_of_lands (flat' h1 h2 h3 _ (lands_far hr hne))
      have := lands_far (ρ := ρ) g hne'
      rwa [(Prod.mk.inj hr').1] at this
    · exact near_of_lands (flat' h1 h2 h3 _ (lands_near hr))
    · exact fail_of_lands (flat' h1 h2 h3 _ ⟨_, hr, rfl⟩)
    · exact crit_of_lands (flat' h1 h2 h3 _ ⟨_, hr, rfl⟩)
  have flatu : ∀ {e c s s' u}, e ∈ L → (∀ m, Refs e m → low m) → q' s = q' s' → ∀ {o}, Peg G e u o → u = c :: s →
      Lands (behOf G e) ρ (c :: s') ((fateOf o).map fun r => if r = c :: s then none else some (ρ r)) := by
    rintro e c s s' _ h1 h2 h3 o ho rfl
    exact flat h1 h2 h3 ho
  -- a first part that calls lower rules only, and then something
  have seq : ∀ {e es c s s' r ns o}, Expr.and (e :: es) ∈ L → (∀ m, Refs e m → low m) → TailCalls T low (.and es) → q' s = q' s' →
      Peg G e (c :: s) (.ok r ns) → Peg G (.and es) r o →
      (r = c :: s → Lands (behOf G (.and es)) ρ (c :: s') ((fateOf o).map fun r => if r = c :: s then none else some (ρ r))) →
      Lands (behOf G (.and (e :: es))) ρ (c :: s') ((fateOf o).map fun r => if r = c :: s then none else some (ρ r)) := by
    intro e es c s s' r ns o hm h1 h2 h3 h4 h5 ih
    obtain ⟨he, hes⟩ := hL.and _ _ hm
    by_cases hr : r = c :: s
    · have ih' := ih hr
      subst hr
      have g := near_of_lands (flat' he h1 h3 _ (lands_near ⟨_, h4⟩))
      refine lands_same (fun d hd => ?_) ih'
      rw [beh_and]
      exact .more g hd
    · obtain ⟨r', g, hne', hr'⟩ := far_of_lands (flat' he h1 h3 _ (lands_far ⟨_, h4⟩ hr))
      have hc : {x | Comes (behOf G (.and es)) ρ r' x} = {x | Comes (behOf G (.and es)) ρ r x} :=
        congrFun (Prod.mk.inj hr').2 (⟨.and es, hes, h2⟩ : P)
      have hd : (fateOf o).map ρ ∈ {x | Comes (behOf G (.and es)) ρ r x} := ⟨_, behOf_iff.2 ⟨o, h5, rfl⟩, rfl⟩
      rw [← hc] at hd
      obtain ⟨d', hd', hm⟩ := hd
      refine ⟨d', by rw [beh_and]; exact .more g hd', ?_⟩
      cases o with
      | ok t nt =>
        cases d' with
        | ok t' =>
          simp only [fateOf, Fate.map, Fate.ok.injEq] at hm ⊢
          rw [if_neg (shorter (shrinks_of _ _ _ hd') (shrinks_of _ _ _ g) hne'), hm, if_neg (shorter (peg_suffix h5 rfl) (peg_suffix h4 rfl) hr)]
        | _ => cases hm
      | fail => cases d' <;> first | rfl | cases hm
      | crit => cases d' <;> first | rfl | cases hm
  have none_simple : ∀ {a}, ∀ m, Refs (.simple a) m → low m := fun m hm => by cases hm
  -- what becomes of the text with one more character, for the parts of the rules
  have key : ∀ {e u o}, Peg G e u o → ∀ c s s', q' s = q' s' → u = c :: s → e ∈ L → TailCalls T low e →
      Lands (behOf G e) ρ (c :: s') ((fateOf o).map fun r => if r = c :: s then none else some (ρ r)) := by
    intro e u o h
    have all := h
    induction h with
    | lit_ok | lit_fail | class_ok | class_fail | class_end | dot_ok | dot_end | eof_ok | eof_fail | error =>
      intro c s s' hq hu hm ht
      exact flatu hm none_simple hq all hu
    | and_nil u =>
      intro c s s' hq hu hm ht
      refine flatu hm (fun m h => ?_) hq all hu
      cases h with | and h => cases h
    | or_nil u =>
      intro c s s' hq hu hm ht
      refine flatu hm (fun m h => ?_) hq all hu
      cases h with | or h => cases h
    | @and_ok e es u r r' ns ns' h1 h2 ih1 ih2 =>
      intro c s s' hq hu hm ht
      subst hu
      cases ht with
      | low hl => exact flat hm hl hq all
      | last ht =>
        cases h2
        refine lands_same (fun d hd => ?_) (ih1 h1 c s s' hq rfl (hL.and _ _ hm).1 ht)
        rw [beh_and, beh_and_nil]
        cases d with
        | ok r => exact .more hd (.ok rfl)
        | fail => exact .fail hd
        | crit => exact .crit hd
      | next hl ht => exact seq (o := .ok r' ns') hm hl ht hq h1 h2 fun hr => ih2 h2 c s s' hq hr (hL.and _ _ hm).2 ht
    | @and_fail e es u h1 ih1 =>
      intro c s s' hq hu hm ht
      subst hu
      have : Lands (behOf G e) ρ (c :: s') .fail := by
        cases ht with
        | low hl => exact flat (hL.and _ _ hm).1 (low_part hl) hq h1
        | last ht => exact ih1 h1 c s s' hq rfl (hL.and _ _ hm).1 ht
        | next hl ht => exact flat (hL.and _ _ hm).1 hl hq h1
      refine ⟨.fail, ?_, rfl⟩
      rw [beh_and]
      exact .fail (fail_of_lands this)
    | @and_crit e es u w p h1 ih1 =>
      intro c s s' hq hu hm ht
      subst hu
      have : Lands (behOf G e) ρ (c :: s') .crit := by
        cases ht with
        | low hl => exact flat (hL.and _ _ hm).1 (low_part hl) hq h1
        | last ht => exact ih1 h1 c s s' hq rfl (hL.and _ _ hm).1 ht
        | next hl ht => exact flat (hL.and _ _ hm).1 hl hq h1
      refine ⟨.crit, ?_, rfl⟩
      rw [beh_and]
      exact .crit (crit_of_lands this)
    | @and_tail_fail e es u r ns h1 h2 ih1 ih2 =>
      intro c s s' hq hu hm ht
      subst hu
      cases ht with
      | low hl => exact flat hm hl hq all
      | last ht => cases h2
      | next hl ht => exact seq hm hl ht hq h1 h2 fun hr => ih2 h2 c s s' hq hr (hL.and _ _ hm).2 ht
    | @and_tail_crit e es u r ns w p h1 h2 ih1 ih2 =>
      intro c s s' hq hu hm ht
      subst hu
      cases ht with
      | low hl => exact flat hm hl hq all
      | last ht => cases h2
      | next hl ht => exact seq hm hl ht hq h1 h2 fun hr => ih2 h2 c s s' hq hr (hL.and _ _ hm).2 ht
    | @or_ok e es u r ns h1 ih1 =>
      intro c s s' hq hu hm ht
      subst hu
      cases ht with
      | low hl => exact flat hm hl hq all
      | or ht =>
        refine lands_ok (fun r hr => ?_) (ih1 h1 c s s' hq rfl (hL.or _ _ hm).1 (ht _ List.mem_cons_self))
        rw [beh_or]
        exact .ok hr
    | @or_crit e es u w p h1 ih1 =>
      intro c s s' hq hu hm ht
      subst hu
      cases ht with
      | low hl => exact flat hm hl hq all
      | or ht =>
        refine ⟨.crit, ?_, rfl⟩
        rw [beh_or]
        exact .crit (crit_of_lands (ih1 h1 c s s' hq rfl (hL.or _ _ hm).1 (ht _ List.mem_cons_self)))
    | @or_next e es u o h1 h2 ih1 ih2 =>
      intro c s s' hq hu hm ht
      subst hu
      cases ht with
      | low hl => exact flat hm hl hq all
      | or ht =>
        have g := fail_of_lands (ih1 h1 c s s' hq rfl (hL.or _ _ hm).1 (ht _ List.mem_cons_self))
        refine lands_same (fun d hd => ?_) (ih2 h2 c s s' hq rfl (hL.or _ _ hm).2 (.or fun x hx => ht x (List.mem_cons_of_mem _ hx)))
        rw [beh_or]
        exact .other g hd
    | @not_ok e u r ns h1 ih1 =>
      intro c s s' hq hu hm ht
      subst hu
      cases ht with
      | low hl => exact flat hm hl hq all
      | not ht =>
        obtain ⟨r', g⟩ := ok_of_lands (ih1 h1 c s s' hq rfl (hL.not _ hm) ht)
        refine ⟨.fail, ?_, rfl⟩
        rw [beh_not]
        exact .ok g
    | @not_fail e u h1 ih1 =>
      intro c s s' hq hu hm ht
      subst hu
      cases ht with
      | low hl => exact flat hm hl hq all
      | not ht =>
        have g := fail_of_lands (ih1 h1 c s s' hq rfl (hL.not _ hm) ht)
        refine ⟨.ok (c :: s'), ?_, by simp [fateOf, Fate.map]⟩
        rw [beh_not]
        exact .fail g
    | @not_crit e u w p h1 ih1 =>
      intro c s s' hq hu hm ht
      subst hu
      cases ht with
      | low hl => exact flat hm hl hq all
      | not ht =>
        have g := crit_of_lands (ih1 h1 c s s' hq rfl (hL.not _ hm) ht)
        refine ⟨.ok (c :: s'), ?_, by simp [fateOf, Fate.map]⟩
        rw [beh_not]
        exact .crit g
    | @rep_full e mn u =>
      intro c s s' hq hu hm ht
      subst hu
      cases ht with
      | low hl => exact flat hm hl hq all
    | @rep_more e mn mx u r r' ns ns' hx h1 h2 ih1 ih2 =>
      intro c s s' hq hu hm ht
      subst hu
      cases ht with
      | low hl => exact flat hm hl hq all
      | opt ht =>
        have hr : behOf G (.rep e 0 (some 0)) r (.ok r') := ⟨_, h2⟩
        rw [beh_rep_full] at hr
        cases hr
        refine lands_ok (fun r hr => ?_) (ih1 h1 c s s' hq rfl (hL.rep _ _ _ hm) ht)
        rw [beh_rep_maybe, beh_rep_full]
        exact .ok (.more hr (.ok rfl))
    | @rep_stop e mx u hx h1 ih1 =>
      intro c s s' hq hu hm ht
      subst hu
      cases ht with
      | low hl => exact flat hm hl hq all
      | opt ht =>
        have g := fail_of_lands (ih1 h1 c s s' hq rfl (hL.rep _ _ _ hm) ht)
        refine ⟨.ok (c :: s'), ?_, by simp [fateOf, Fate.map]⟩
        rw [beh_rep_maybe]
        exact .other (.fail g) (.ok rfl)
    | @rep_few e mn mx u hx h0 h1 ih1 =>
      intro c s s' hq hu hm ht
      subst hu
      cases ht with
      | low hl => exact flat hm hl hq all
      | opt ht => cases h0
    | @rep_crit e mn mx u w p hx h1 ih1 =>
      intro c s s' hq hu hm ht
      subst hu
      cases ht with
      | low hl => exact flat hm hl hq all
      | opt ht =>
        refine ⟨.crit, ?_, rfl⟩
        rw [beh_rep_maybe]
        exact .crit (.crit (crit_of_lands (ih1 h1 c s s' hq rfl (hL.rep _ _ _ hm) ht)))
    | @rep_more_fail e mn mx u r ns hx h1 h2 ih1 ih2 =>
      intro c s s' hq hu hm ht
      subst hu
      cases ht with
      | low hl => exact flat hm hl hq all
      | opt ht => cases h2 <;> simp_all
    | @rep_more_crit e mn mx u r ns w p hx h1 h2 ih1 ih2 =>
      intro c s s' hq hu hm ht
      subst hu
      cases ht with
      | low hl => exact flat hm hl hq all
      | opt ht => cases h2 <;> simp_all
    | @call_ok n e u r ns hg h1 ih1 =>
      intro c s s' hq hu hm ht
      subst hu
      cases ht with
      | low hl => exact flat hm hl hq all
      | call hn =>
        obtain ⟨g1, g2⟩ := hT n e hn hg
        rw [beh_call hg]
        exact ih1 h1 c s s' hq rfl g1 g2
    | @call_fail n e u hg h1 ih1 =>
      intro c s s' hq hu hm ht
      subst hu
      cases ht with
      | low hl => exact flat hm hl hq all
      | call hn =>
        obtain ⟨g1, g2⟩ := hT n e hn hg
        rw [beh_call hg]
        exact ih1 h1 c s s' hq rfl g1 g2
    | @call_crit n e u w p hg h1 ih1 =>
      intro c s s' hq hu hm ht
      subst hu
      cases ht with
      | low hl => exact flat hm hl hq all
      | call hn =>
        obtain ⟨g1, g2⟩ := hT n e hn hg
        rw [beh_call hg]
        exact ih1 h1 c s s' hq rfl g1 g2
    | @call_missing n u hg =>
      intro c s s' hq hu hm ht
      refine ⟨.crit, ?_, rfl⟩
      rw [beh_missing hg]
      exact .crit rfl
  have tells : ∀ {e}, e ∈ L → TailCalls T low e → ∀ c s s', q' s = q' s' → ∀ x, Lands (behOf G e) ρ (c :: s) x → Lands (behOf G e) ρ (c :: s') x := by
    rintro e heL he c s s' h x ⟨d, hd, rfl⟩
    obtain ⟨o, ho, rfl⟩ := behOf_iff.1 hd
    exact key ho c s s' h rfl heL he
  refine ⟨_, inferInstance, q', fun s s' h => (Prod.mk.inj (fine h)).1, fun c s s' h hρ => ?_, tells heL he⟩
  have hσ : σ (c :: s) = σ (c :: s') := by
    refine Prod.ext hρ (funext fun x => ?_)
    ext y
    exact ⟨comes_of_lands hρ (tells x.2.1 x.2.2 c s s' h) y, comes_of_lands hρ.symm (tells x.2.1 x.2.2 c s' s h.symm) y⟩
  exact Prod.ext hσ (funext fun x => (m x).next c s s' (part h x) hσ)

theorem tailCalls_both {P same low : Str → Prop} {e} (h : TailCalls same low e) :
    (∀ m, Refs e m → P m) → TailCalls (fun m => P m ∧ same m) (fun m => P m ∧ low m) e := by
  induction h with
  | low h => exact fun hp => .low fun m hm => ⟨hp m hm, h m hm⟩
  | @call n h => exact fun hp => .call ⟨hp n (.here n), h⟩
  | last _ ih => exact fun hp => .last (ih fun m hm => hp m (.and List.mem_cons_self hm))
  | next h _ ih =>
    refine fun hp => .next (fun m hm => ⟨hp m (.and List.mem_cons_self hm), h m hm⟩) (ih fun m hm => hp m ?_)
    cases hm with | and hx hm => exact .and (List.mem_cons_of_mem _ hx) hm
  | or _ ih => exact fun hp => .or fun x hx => ih x hx fun m hm => hp m (.or hx hm)
  | not _ ih => exact fun hp => .not (ih fun m hm => hp m (.not hm))
  | opt _ ih => exact fun hp => .opt (ih fun m hm => hp m (.rep hm))

/-- with recursion in last position only, everything is foreseen -/
theorem foresees_of_tailRecursive {l : List Str} (hl : ∀ n e, G n = some e → n ∈ l) (h : TailRecursive G) : Foresees (behOf G (.ruleName c!"main")) := by
  obtain ⟨level, h⟩ := h
  obtain ⟨L, hL, hc⟩ := parts_of_all (l.filterMap G)
  have : ∀ k n, level n = k → Reach G n → Foresees (behOf G (.ruleName n)) := by
    intro k
    induction k using Nat.strongRecOn with
    | _ k ih =>
      intro n hk hn
      cases hg : G n with
      | none => rw [beh_missing hg]; exact foresees_const _
      | some e =>
        rw [beh_call hg]
        have hT : ∀ n e, Reach G n ∧ level n = k → G n = some e →
            e ∈ L ∧ TailCalls (fun m => Reach G m ∧ level m = k) (fun m => Reach G m ∧ level m < k) e := by
          rintro n e ⟨h1, rfl⟩ hg
          exact ⟨hL e (List.mem_filterMap.2 ⟨n, hl n e hg, hg⟩), tailCalls_both (h n e h1 hg) fun m hm => .step h1 hg hm⟩
        have := hT n e ⟨hn, hk⟩ hg
        exact foresees_tail hc (fun m hm => ih _ hm.2 m rfl hm.1) hT this.1 this.2
  exact this _ _ rfl .main

/-! ### Automata -/

/-- what a finite memory can tell reading from the end is a regular language -/
theorem regular_of_memory {Q : Type} [Finite Q] {st : Str → Q} (hst : ∀ c s s', st s = st s' → st (c :: s) = st (c :: s')) (P : Q → Prop) :
    ∃ L : Language Char, L.IsRegular ∧ ∀ s, s ∈ L ↔ P (st s) := by
  classical
  have := Fintype.ofFinite Q
  let M : DFA Char Q := ⟨fun x c => if h : ∃ s, st s = x then st (c :: h.choose) else x, st [], {x | P x}⟩
  have he : ∀ s : Str, M.eval s.reverse = st s := by
    intro s
    induction s with
    | nil => rfl
    | cons c s ih =>
      rw [List.reverse_cons, DFA.eval_append_singleton, ih]
      have h : ∃ s', st s' = st s := ⟨s, rfl⟩
      show (if h : ∃ s', st s' = st s then st (c :: h.choose) else st s) = _
      rw [dif_pos h]
      exact hst c _ _ h.choose_spec
  refine ⟨M.accepts.reverse, Language.IsRegular.reverse ⟨Q, inferInstance, M, rfl⟩, fun s => ?_⟩
  rw [Language.mem_reverse, DFA.mem_accepts, he]
  rfl

theorem regular_of_foresees {B : Beh} (h : Foresees B) (P : Set (Fate Bool) → Prop) :
    ∃ L : Language Char, L.IsRegular ∧ ∀ s, s ∈ L ↔ P {x | Comes B (fun r => decide (r = [])) s x} := by
  obtain ⟨Q, _, q, m⟩ := h Bool fun r => decide (r = [])
  refine regular_of_memory (Q := Q × Set (Fate Bool)) (st := fun s => (q s, {x | Comes B (fun r => decide (r = [])) s x})) ?_ fun x => P x.2
  intro c s s' he
  have := (Prod.mk.inj he).1
  exact Prod.ext (m.next c s s' this (by simp)) (m.comes this (by simp))

end DP
