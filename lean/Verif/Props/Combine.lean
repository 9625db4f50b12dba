/-
Property C72: sets of rules for the texts that two sets of rules both accept, that one of them accepts, or that
one does not accept.
-/
import Verif.Proofs.Combine
import Verif.Proofs.PegInv
import Verif.Props.Rename
import Verif.Props.Readme

namespace DP
open Spec

/-! ### Two sets of rules side by side -/

/-- `R` has the rule `main = e`, the rules of `A` with an "l" before their names and those of `B` with an "r" -/
structure SideBySide (e : Expr) (A B R : SetOfRules) : Prop where
  main : grammar R c!"main" = some e
  left : ∀ n, grammar R ('l' :: n) = (grammar A n).map (renExpr ('l' :: ·))
  right : ∀ n, grammar R ('r' :: n) = (grammar B n).map (renExpr ('r' :: ·))

/-- such a set of rules, built by `merge` and `add` -/
def sideBySide (e : Expr) (A B : SetOfRules) : SetOfRules :=
  ((renRules ('l' :: ·) A).merge (renRules ('r' :: ·) B)).add c!"main" e

theorem renRules_unique {c : Char} {A : SetOfRules} (h : UniqueKeys A) : UniqueKeys (renRules (c :: ·) A) := by
  unfold UniqueKeys renRules at *
  rw [List.map_map]
  have : (Prod.fst ∘ fun x : Str × Expr => (c :: x.1, renExpr (c :: ·) x.2)) = (c :: ·) ∘ Prod.fst := rfl
  rw [this, ← List.map_map]
  exact h.map (fun a b hab => by simpa using hab)

theorem renRules_other {c d : Char} (h : c ≠ d) (A : SetOfRules) (n : Str) : grammar (renRules (c :: ·) A) (d :: n) = none := by
  obtain ⟨es⟩ := A
  simp only [grammar, renRules]
  induction es with
  | nil => rfl
  | cons x xs ih =>
    rw [List.map_cons, List.lookup_cons]
    have : (d :: n == c :: x.1) = false := by simp [Ne.symm h]
    rw [this]
    exact ih

theorem sideBySide_is (e : Expr) {A B : SetOfRules} (hA : UniqueKeys A) (hB : UniqueKeys B) : SideBySide e A B (sideBySide e A B) where
  main := by rw [sideBySide, C22_add, if_pos rfl]
  left n := by
    rw [sideBySide, C22_add, if_neg (by intro h; cases h), C22_merge (renRules_unique hA) (renRules_unique hB), renRules_other (c := 'r') (d := 'l') (by decide), Option.or_none]
    exact get_renRules (fun a b h => by simpa using h) A n
  right n := by
    rw [sideBySide, C22_add, if_neg (by intro h; cases h), C22_merge (renRules_unique hA) (renRules_unique hB), renRules_other (c := 'l') (d := 'r') (by decide), Option.none_or]
    exact get_renRules (fun a b h => by simpa using h) B n

theorem SideBySide.copies_left {e A B R} (h : SideBySide e A B R) : Copies ('l' :: ·) (denotes A) (denotes R) := by
  intro n
  rw [denotes, denotes, h.left, Option.map_map, Option.map_map]
  congr 1
  funext x
  exact ren_effective _ x

theorem SideBySide.copies_right {e A B R} (h : SideBySide e A B R) : Copies ('r' :: ·) (denotes B) (denotes R) := by
  intro n
  rw [denotes, denotes, h.right, Option.map_map, Option.map_map]
  congr 1
  funext x
  exact ren_effective _ x

/-! ### A rule that has to match all of the text -/

/-- `n !.` -/
def wholly (n : Str) : Expr := .and [.ruleName n, .not (.simple .dot)]

/-- what `n !.` makes of the outcome of `n` -/
def whollyOut : Outcome → Outcome
  | .ok [] ns => .ok [] ns
  | .ok (_ :: _) _ => .fail
  | .fail => .fail
  | .crit w q => .crit w q

theorem wholly_iff {G n s o'} : Peg G (wholly n) s o' ↔ ∃ o, Peg G (.ruleName n) s o ∧ o' = whollyOut o := by
  have back : ∀ {o}, Peg G (.ruleName n) s o → Peg G (wholly n) s (whollyOut o) := by
    intro o h
    cases o with
    | ok r ns =>
      cases r with
      | nil =>
        have := Peg.and_ok h (.and_ok (.not_fail .dot_end) (.and_nil []))
        rwa [List.append_nil, List.append_nil] at this
      | cons c r => exact .and_tail_fail h (.and_fail (.not_ok (.dot_ok c r)))
    | fail => exact .and_fail h
    | crit w q => exact .and_crit h
  constructor
  · intro h
    have : ∃ o, Peg G (.ruleName n) s o := by
      cases h with
      | and_ok h _ => exact ⟨_, h⟩
      | and_fail h => exact ⟨_, h⟩
      | and_crit h => exact ⟨_, h⟩
      | and_tail_fail h _ => exact ⟨_, h⟩
      | and_tail_crit h _ => exact ⟨_, h⟩
    obtain ⟨o, ho⟩ := this
    exact ⟨o, ho, peg_det h (back ho)⟩
  · rintro ⟨o, ho, rfl⟩; exact back ho

/-! ### The answers of `parse` -/

theorem one_node {G n s r ns} (h : Peg G (.ruleName n) s (.ok r ns)) : ∃ t, ns = [t] := by
  cases h with
  | call_ok _ _ => exact ⟨_, rfl⟩

theorem accepted_iff {R s} (ha : Ascii s) : (∃ t, parse s R = .ok t) ↔ ∃ ns, Peg (denotes R) (.ruleName c!"main") s (.ok [] ns) := by
  constructor
  · rintro ⟨t, h⟩; exact ⟨_, (C02_parse_ok_iff_peg_any_bounds R t ha).1 h⟩
  · rintro ⟨ns, h⟩
    obtain ⟨t, rfl⟩ := one_node h
    exact ⟨t, (C02_parse_ok_iff_peg_any_bounds R t ha).2 h⟩

theorem critical_iff {R s} (ha : Ascii s) : (∃ e, parse s R = .err e ∧ e.priority = .critical) ↔
    ∃ w q, Peg (denotes R) (.ruleName c!"main") s (.crit w q) := by
  constructor
  · rintro ⟨e, h, hc⟩
    obtain ⟨_, q, _, _, h1⟩ := C09_critical_errors_were_reached h hc
    exact ⟨_, _, hits_iff_crit.1 h1⟩
  · rintro ⟨w, q, h⟩
    obtain ⟨e, h1, h2, _⟩ := C09_critical_errors_are_final ha (hits_iff_crit.2 h)
    exact ⟨e, h1, h2⟩

theorem returns_iff {R s} (ha : Ascii s) : parse s R ≠ .diverge ↔ ∃ o, Peg (denotes R) (.ruleName c!"main") s o := by
  rw [Ne, C02_parse_diverges_iff_peg_any_bounds ha, not_not]

theorem ordinary_iff {R s} (ha : Ascii s) : (∃ e, parse s R = .err e ∧ e.priority = .normal) ↔
    ∃ o, Peg (denotes R) (.ruleName c!"main") s o ∧ whollyOut o = .fail := by
  constructor
  · rintro ⟨e, h, hn⟩
    obtain ⟨o, ho, hne⟩ := (C02_parse_err_iff_peg_any_bounds ha).1 ⟨e, h⟩
    refine ⟨o, ho, ?_⟩
    cases o with
    | ok r ns =>
      cases r with
      | nil => exact absurd rfl (hne ns)
      | cons c r => rfl
    | fail => rfl
    | crit w q =>
      obtain ⟨e', h', hc⟩ := (critical_iff ha).2 ⟨w, q, ho⟩
      rw [h] at h'; cases h'
      rw [hn] at hc; cases hc
  · rintro ⟨o, ho, hf⟩
    obtain ⟨e, h⟩ := (C02_parse_err_iff_peg_any_bounds (R := R) ha).2 ⟨o, ho, fun ns h => by subst h; cases hf⟩
    refine ⟨e, h, ?_⟩
    cases hp : e.priority with
    | normal => rfl
    | critical =>
      obtain ⟨w, q, h'⟩ := (critical_iff ha).1 ⟨e, h, hp⟩
      cases peg_det ho h'
      cases hf

/-! ### What both accept -/

theorem SideBySide.call {e A B R} (h : SideBySide e A B R) {s o} (hp : Peg (denotes R) (.ruleName c!"main") s o) :
    (∃ r ns, o = .ok r [.rule c!"main" ns] ∧ Peg (denotes R) (effective e) s (.ok r ns)) ∨ (o = .fail ∧ Peg (denotes R) (effective e) s .fail) ∨
      ∃ w q, o = .crit w q ∧ Peg (denotes R) (effective e) s (.crit w q) := by
  have hm : denotes R c!"main" = some (effective e) := by rw [denotes, h.main]; rfl
  cases hp with
  | call_ok hg hp => rw [hm] at hg; cases hg; exact .inl ⟨_, _, rfl, hp⟩
  | call_fail hg hp => rw [hm] at hg; cases hg; exact .inr (.inl ⟨rfl, hp⟩)
  | call_crit hg hp => rw [hm] at hg; cases hg; exact .inr (.inr ⟨_, _, rfl, hp⟩)
  | call_missing hg => rw [hm] at hg; cases hg

theorem SideBySide.main_ok {e A B R} (h : SideBySide e A B R) {s r ns} (hp : Peg (denotes R) (effective e) s (.ok r ns)) :
    Peg (denotes R) (.ruleName c!"main") s (.ok r [.rule c!"main" ns]) := .call_ok (by rw [denotes, h.main]; rfl) hp

theorem SideBySide.main_any {e A B R} (h : SideBySide e A B R) {s o} (hp : Peg (denotes R) (effective e) s o) :
    ∃ o, Peg (denotes R) (.ruleName c!"main") s o := by
  have hm : denotes R c!"main" = some (effective e) := by rw [denotes, h.main]; rfl
  cases o with
  | ok r ns => exact ⟨_, .call_ok hm hp⟩
  | fail => exact ⟨_, .call_fail hm hp⟩
  | crit w q => exact ⟨_, .call_crit hm hp⟩

theorem SideBySide.left_iff {e A B R} (h : SideBySide e A B R) {s o'} : Peg (denotes R) (.ruleName c!"lmain") s o' ↔
    ∃ o, Peg (denotes A) (.ruleName c!"main") s o ∧ o' = renOutcome ('l' :: ·) o :=
  ⟨fun hp => peg_copies h.copies_left hp (.ruleName c!"main") rfl, fun ⟨_, hp, ho⟩ => ho ▸ copies_peg h.copies_left hp⟩

theorem SideBySide.right_iff {e A B R} (h : SideBySide e A B R) {s o'} : Peg (denotes R) (.ruleName c!"rmain") s o' ↔
    ∃ o, Peg (denotes B) (.ruleName c!"main") s o ∧ o' = renOutcome ('r' :: ·) o :=
  ⟨fun hp => peg_copies h.copies_right hp (.ruleName c!"main") rfl, fun ⟨_, hp, ho⟩ => ho ▸ copies_peg h.copies_right hp⟩

theorem whollyOut_ren (σ) (o) : whollyOut (renOutcome σ o) = renOutcome σ (whollyOut o) := by
  cases o with
  | ok r ns => cases r <;> rfl
  | _ => rfl

theorem SideBySide.whole_iff {e A B R} (h : SideBySide e A B R) {s o'} : Peg (denotes R) (wholly c!"lmain") s o' ↔
    ∃ o, Peg (denotes A) (.ruleName c!"main") s o ∧ o' = renOutcome ('l' :: ·) (whollyOut o) := by
  rw [wholly_iff]
  constructor
  · rintro ⟨o, ho, rfl⟩
    obtain ⟨o1, h1, rfl⟩ := h.left_iff.1 ho
    exact ⟨o1, h1, whollyOut_ren _ _⟩
  · rintro ⟨o, ho, rfl⟩
    exact ⟨_, h.left_iff.2 ⟨o, ho, rfl⟩, (whollyOut_ren _ _).symm⟩

theorem whollyOut_ok {o r ns} (h : whollyOut o = .ok r ns) : r = [] ∧ o = .ok [] ns := by
  cases o with
  | ok q ms =>
    cases q with
    | nil => cases h; exact ⟨rfl, rfl⟩
    | cons => cases h
  | fail => cases h
  | crit => cases h

/-- `main = !(!(lmain !.)) rmain` -/
def bothExpr : Expr := .and [.not (.not (wholly c!"lmain")), .ruleName c!"rmain"]

theorem ren_ok {σ o r ns} (h : renOutcome σ o = .ok r ns) : ∃ ms, o = .ok r ms ∧ ns = renNodes σ ms := by
  cases o with
  | ok q ms => cases h; exact ⟨_, rfl, rfl⟩
  | fail => cases h
  | crit => cases h

theorem both_ok {A B R} (h : SideBySide bothExpr A B R) {s r ns} : Peg (denotes R) (effective bothExpr) s (.ok r ns) ↔
    (∃ ms, Peg (denotes A) (.ruleName c!"main") s (.ok [] ms)) ∧
      ∃ ms, Peg (denotes B) (.ruleName c!"main") s (.ok r ms) ∧ ns = renNodes ('r' :: ·) ms := by
  have e0 : effective bothExpr = bothExpr := rfl
  rw [e0]
  constructor
  · intro hp
    obtain ⟨q, n1, n2, h1, h2, rfl⟩ := inv_and hp
    obtain ⟨rfl, rfl, h3⟩ := inv_not h1
    obtain ⟨q2, n3, n4, h4, h5, rfl⟩ := inv_and h2
    obtain ⟨rfl, rfl⟩ := inv_and_nil h5
    obtain ⟨o, ho, he⟩ := h.right_iff.1 h4
    obtain ⟨ms, rfl, rfl⟩ := ren_ok he.symm
    refine ⟨?_, ms, ho, by simp⟩
    have : ∃ r ns, Peg (denotes R) (wholly c!"lmain") s (.ok r ns) := by
      cases h1 with
      | not_fail h1 =>
        cases h1 with
        | not_ok h1 => exact ⟨_, _, h1⟩
      | not_crit h1 => cases h1
    obtain ⟨r', ns', h6⟩ := this
    obtain ⟨o', ho', he'⟩ := h.whole_iff.1 h6
    obtain ⟨ms', h7, _⟩ := ren_ok he'.symm
    obtain ⟨rfl, rfl⟩ := whollyOut_ok h7
    exact ⟨_, ho'⟩
  · rintro ⟨⟨ms, h1⟩, ms', h2, rfl⟩
    have h3 := h.whole_iff.2 ⟨_, h1, rfl⟩
    have h4 := h.right_iff.2 ⟨_, h2, rfl⟩
    have := Peg.and_ok (.not_fail (.not_ok h3)) (.and_ok h4 (.and_nil _))
    rwa [List.append_nil, List.nil_append] at this

/-- **C72**: a set of rules for the texts that two sets of rules both accept; the tree is the one of the second. -/
theorem C72_both {A B R : SetOfRules} (h : SideBySide bothExpr A B R) (s : Str) :
    ((∃ t, parse s R = .ok t) ↔ (∃ t, parse s A = .ok t) ∧ ∃ t, parse s B = .ok t) ∧
    (∀ t, parse s R = .ok t ↔ (∃ t, parse s A = .ok t) ∧ ∃ u, parse s B = .ok u ∧ t = .rule c!"main" [renNode ('r' :: ·) u]) ∧
    (Ascii s → parse s A ≠ .diverge → parse s B ≠ .diverge → parse s R ≠ .diverge) := by
  have key : ∀ t, parse s R = .ok t ↔ (∃ t, parse s A = .ok t) ∧ ∃ u, parse s B = .ok u ∧ t = .rule c!"main" [renNode ('r' :: ·) u] := by
    intro t
    constructor
    · intro hp
      have ha := C17_ok_only_on_ascii hp
      have hp := (C02_parse_ok_iff_peg_any_bounds R t ha).1 hp
      rcases h.call hp with ⟨r, ns, he, hq⟩ | ⟨he, _⟩ | ⟨_, _, he, _⟩
      · cases he
        obtain ⟨h1, ms, h2, rfl⟩ := (both_ok h).1 hq
        obtain ⟨u, rfl⟩ := one_node h2
        exact ⟨(accepted_iff ha).2 h1, u, (C02_parse_ok_iff_peg_any_bounds B u ha).2 h2, rfl⟩
      · cases he
      · cases he
    · rintro ⟨⟨u, h1⟩, v, h2, rfl⟩
      have ha := C17_ok_only_on_ascii h1
      refine (C02_parse_ok_iff_peg_any_bounds R _ ha).2 (h.main_ok ((both_ok h).2 ⟨(accepted_iff ha).1 ⟨u, h1⟩, [v], ?_, rfl⟩))
      exact (C02_parse_ok_iff_peg_any_bounds B v ha).1 h2
  refine ⟨⟨fun ⟨t, ht⟩ => ?_, fun ⟨h1, u, h2⟩ => ⟨_, (key _).2 ⟨h1, u, h2, rfl⟩⟩⟩, key, fun ha h1 h2 => ?_⟩
  · obtain ⟨h1, u, h2, _⟩ := (key t).1 ht
    exact ⟨h1, u, h2⟩
  · obtain ⟨o1, h1⟩ := (returns_iff ha).1 h1
    obtain ⟨o2, h2⟩ := (returns_iff ha).1 h2
    rw [returns_iff ha]
    have h3 := h.whole_iff.2 ⟨_, h1, rfl⟩
    have h4 := h.right_iff.2 ⟨_, h2, rfl⟩
    have h5 : ∃ o, Peg (denotes R) (effective bothExpr) s o := by
      have e0 : effective bothExpr = bothExpr := rfl
      rw [e0]
      cases o : renOutcome ('l' :: ·) (whollyOut o1) with
      | ok r ns =>
        rw [o] at h3
        have h6 : Peg (denotes R) (.not (.not (wholly c!"lmain"))) s (.ok s []) := .not_fail (.not_ok h3)
        cases o' : renOutcome ('r' :: ·) o2 with
        | ok r' ns' => rw [o'] at h4; exact ⟨_, .and_ok h6 (.and_ok h4 (.and_nil _))⟩
        | fail => rw [o'] at h4; exact ⟨_, .and_tail_fail h6 (.and_fail h4)⟩
        | crit w q => rw [o'] at h4; exact ⟨_, .and_tail_crit h6 (.and_crit h4)⟩
      | fail => rw [o] at h3; exact ⟨_, .and_fail (.not_ok (.not_fail h3))⟩
      | crit w q => rw [o] at h3; exact ⟨_, .and_fail (.not_ok (.not_crit h3))⟩
    obtain ⟨o, ho⟩ := h5
    exact h.main_any ho

def exAs : SetOfRules := ⟨[(c!"main", .and [.rep (.simple (.literal c!"a")) 0 none, .simple .dot])]⟩
def exBs : SetOfRules := ⟨[(c!"main", .and [.simple .dot, .rep (.simple (.literal c!"b")) 0 none])]⟩

def exNot (d a : Str) : Error := { pos := { n := 2, row := 0, col := 2, startLine := 0 }, descr := .literal d, lineBefore := a, lineAfter := c!"b", parsingRules := [], priority := .normal }

theorem exAs_unique : UniqueKeys exAs := by simp [UniqueKeys, exAs]
theorem exBs_unique : UniqueKeys exBs := by simp [UniqueKeys, exBs]
theorem exAs_ab : parse c!"ab" exAs = .ok (.rule c!"main" [.val c!"a", .val c!"b"]) := parse_of_fuel (f := 20) (by decide +kernel) (by simp)
theorem exBs_ab : parse c!"ab" exBs = .ok (.rule c!"main" [.val c!"a", .val c!"b"]) := parse_of_fuel (f := 20) (by decide +kernel) (by simp)
theorem exAs_aab : parse c!"aab" exAs = .ok (.rule c!"main" [.val c!"a", .val c!"a", .val c!"b"]) := parse_of_fuel (f := 20) (by decide +kernel) (by simp)
theorem exBs_aab : parse c!"aab" exBs = .err (exNot c!"b" c!"aa") := parse_of_fuel (f := 20) (by decide +kernel) (by simp)
theorem exAs_abb : parse c!"abb" exAs = .err (exNot c!"a" c!"ab") := parse_of_fuel (f := 20) (by decide +kernel) (by simp)
theorem exBs_abb : parse c!"abb" exBs = .ok (.rule c!"main" [.val c!"a", .val c!"b", .val c!"b"]) := parse_of_fuel (f := 20) (by decide +kernel) (by simp)

/-- "ab" is accepted by both, "aab" by the first only -/
example : parse c!"ab" (sideBySide bothExpr exAs exBs) = .ok (.rule c!"main" [.rule c!"rmain" [.val c!"a", .val c!"b"]]) :=
  ((C72_both (sideBySide_is _ exAs_unique exBs_unique) _).2.1 _).2 ⟨⟨_, exAs_ab⟩, _, exBs_ab, rfl⟩

example : ¬ ∃ t, parse c!"aab" (sideBySide bothExpr exAs exBs) = .ok t := by
  intro h
  obtain ⟨_, t, ht⟩ := (C72_both (sideBySide_is _ exAs_unique exBs_unique) _).1.1 h
  rw [exBs_aab] at ht
  cases ht

/-! ### What one of them accepts -/

/-- `main = lmain !. / rmain` -/
def eitherExpr : Expr := .or [wholly c!"lmain", .ruleName c!"rmain"]

/-- **C72**: a set of rules for the texts that the first accepts, and those that it refuses (not with a critical error) and
the second accepts; the tree is the one of the first that accepts. -/
theorem C72_either {A B R : SetOfRules} (h : SideBySide eitherExpr A B R) (s : Str) :
    (∀ t, parse s R = .ok t ↔ (∃ u, parse s A = .ok u ∧ t = .rule c!"main" [renNode ('l' :: ·) u]) ∨
      (∃ e, parse s A = .err e ∧ e.priority = .normal) ∧ ∃ u, parse s B = .ok u ∧ t = .rule c!"main" [renNode ('r' :: ·) u]) ∧
    (Ascii s → parse s A ≠ .diverge → parse s B ≠ .diverge → parse s R ≠ .diverge) := by
  have e0 : effective eitherExpr = eitherExpr := rfl
  constructor
  · intro t
    constructor
    · intro hp
      have ha := C17_ok_only_on_ascii hp
      have hp := (C02_parse_ok_iff_peg_any_bounds R t ha).1 hp
      rcases h.call hp with ⟨r, ns, he, hq⟩ | ⟨he, _⟩ | ⟨_, _, he, _⟩
      · cases he
        rw [e0] at hq
        rcases inv_or_cons hq with h1 | ⟨h1, h2⟩
        · obtain ⟨o, ho, he⟩ := h.whole_iff.1 h1
          obtain ⟨ms, h3, rfl⟩ := ren_ok he.symm
          obtain ⟨_, rfl⟩ := whollyOut_ok h3
          obtain ⟨u, rfl⟩ := one_node ho
          exact .inl ⟨u, (C02_parse_ok_iff_peg_any_bounds A u ha).2 ho, rfl⟩
        · rcases inv_or_cons h2 with h2 | ⟨_, h2⟩
          · obtain ⟨o, ho, he⟩ := h.whole_iff.1 h1
            have hf : whollyOut o = .fail := by
              cases hw : whollyOut o with
              | fail => rfl
              | ok => rw [hw] at he; cases he
              | crit => rw [hw] at he; cases he
            obtain ⟨o2, ho2, he2⟩ := h.right_iff.1 h2
            obtain ⟨ms, rfl, rfl⟩ := ren_ok he2.symm
            obtain ⟨u, rfl⟩ := one_node ho2
            exact .inr ⟨(ordinary_iff ha).2 ⟨o, ho, hf⟩, u, (C02_parse_ok_iff_peg_any_bounds B u ha).2 ho2, rfl⟩
          · cases h2
      · cases he
      · cases he
    · rintro (⟨u, h1, rfl⟩ | ⟨h1, u, h2, rfl⟩)
      · have ha := C17_ok_only_on_ascii h1
        refine (C02_parse_ok_iff_peg_any_bounds R _ ha).2 (h.main_ok ?_)
        rw [e0]
        exact .or_ok (h.whole_iff.2 ⟨_, (C02_parse_ok_iff_peg_any_bounds A u ha).1 h1, rfl⟩)
      · have ha := C17_ok_only_on_ascii h2
        refine (C02_parse_ok_iff_peg_any_bounds R _ ha).2 (h.main_ok ?_)
        rw [e0]
        obtain ⟨o, ho, hf⟩ := (ordinary_iff ha).1 h1
        have h3 := h.whole_iff.2 ⟨o, ho, rfl⟩
        rw [hf] at h3
        exact .or_next h3 (.or_ok (h.right_iff.2 ⟨_, (C02_parse_ok_iff_peg_any_bounds B u ha).1 h2, rfl⟩))
  · intro ha h1 h2
    obtain ⟨o1, h1⟩ := (returns_iff ha).1 h1
    obtain ⟨o2, h2⟩ := (returns_iff ha).1 h2
    rw [returns_iff ha]
    have h3 := h.whole_iff.2 ⟨_, h1, rfl⟩
    have h4 := h.right_iff.2 ⟨_, h2, rfl⟩
    have h5 : ∃ o, Peg (denotes R) (effective eitherExpr) s o := by
      rw [e0]
      cases o : renOutcome ('l' :: ·) (whollyOut o1) with
      | ok r ns => rw [o] at h3; exact ⟨_, .or_ok h3⟩
      | fail =>
        rw [o] at h3
        cases o' : renOutcome ('r' :: ·) o2 with
        | ok r' ns' => rw [o'] at h4; exact ⟨_, .or_next h3 (.or_ok h4)⟩
        | fail => rw [o'] at h4; exact ⟨_, .or_next h3 (.or_next h4 (.or_nil _))⟩
        | crit w q => rw [o'] at h4; exact ⟨_, .or_next h3 (.or_crit h4)⟩
      | crit w q => rw [o] at h3; exact ⟨_, .or_crit h3⟩
    obtain ⟨o, ho⟩ := h5
    exact h.main_any ho

/-- "aab" is accepted by the first, "abb" by the second -/
example : parse c!"aab" (sideBySide eitherExpr exAs exBs) = .ok (.rule c!"main" [.rule c!"lmain" [.val c!"a", .val c!"a", .val c!"b"]]) :=
  ((C72_either (sideBySide_is _ exAs_unique exBs_unique) _).1 _).2 (.inl ⟨_, exAs_aab, rfl⟩)

example : parse c!"abb" (sideBySide eitherExpr exAs exBs) = .ok (.rule c!"main" [.rule c!"rmain" [.val c!"a", .val c!"b", .val c!"b"]]) :=
  ((C72_either (sideBySide_is _ exAs_unique exBs_unique) _).1 _).2 (.inr ⟨⟨_, exAs_abb, rfl⟩, _, exBs_abb, rfl⟩)

/-! ### What one does not accept -/

/-- `main = !(lmain !.) .*` -/
def otherExpr : Expr := .and [.not (wholly c!"lmain"), .rep (.simple .dot) 0 none]

theorem dots_all {G} : ∀ s : Str, Peg G (.rep (.simple .dot) 0 none) s (.ok [] (s.map fun c => .val [c]))
  | [] => .rep_stop (by simp) .dot_end
  | c :: s => .rep_more (by simp) (.dot_ok c s) (dots_all s)

/-- **C72**: a set of rules for the ASCII texts that another one refuses. -/
theorem C72_other {A B R : SetOfRules} (h : SideBySide otherExpr A B R) {s : Str} (ha : Ascii s) :
    ((∃ t, parse s R = .ok t) ↔ ∃ e, parse s A = .err e) ∧ ((∃ e, parse s R = .err e) ↔ ∃ t, parse s A = .ok t) ∧
    (parse s R = .diverge ↔ parse s A = .diverge) := by
  have e0 : effective otherExpr = otherExpr := rfl
  have good : ∀ o, Peg (denotes A) (.ruleName c!"main") s o → (∀ ns, o ≠ .ok [] ns) →
      Peg (denotes R) (.ruleName c!"main") s (.ok [] [.rule c!"main" (s.map fun c => .val [c])]) := by
    intro o ho hne
    refine h.main_ok ?_
    rw [e0]
    have h1 := h.whole_iff.2 ⟨_, ho, rfl⟩
    have h2 : Peg (denotes R) (.not (wholly c!"lmain")) s (.ok s []) := by
      cases hw : whollyOut o with
      | ok r ns => exact absurd (whollyOut_ok hw).2 (hne ns)
      | fail => rw [hw] at h1; exact .not_fail h1
      | crit w q => rw [hw] at h1; exact .not_crit h1
    have := Peg.and_ok h2 (.and_ok (dots_all s) (.and_nil _))
    rwa [List.append_nil, List.nil_append] at this
  have bad : ∀ ns, Peg (denotes A) (.ruleName c!"main") s (.ok [] ns) → Peg (denotes R) (.ruleName c!"main") s .fail := by
    intro ns hn
    refine .call_fail (by rw [denotes, h.main]; rfl) ?_
    rw [e0]
    exact .and_fail (.not_ok (h.whole_iff.2 ⟨_, hn, rfl⟩))
  have ok1 : (∃ e, parse s A = .err e) → ∃ t, parse s R = .ok t := by
    intro he
    obtain ⟨o, ho, hne⟩ := (C02_parse_err_iff_peg_any_bounds ha).1 he
    exact (accepted_iff ha).2 ⟨_, good o ho hne⟩
  have err1 : (∃ t, parse s A = .ok t) → ∃ e, parse s R = .err e := by
    intro ht
    obtain ⟨ns, hn⟩ := (accepted_iff ha).1 ht
    exact (C02_parse_err_iff_peg_any_bounds ha).2 ⟨_, bad ns hn, by simp⟩
  have div1 : parse s A = .diverge → parse s R = .diverge := by
    intro hd
    by_contra hr
    obtain ⟨o, ho⟩ := (returns_iff ha).1 hr
    refine (returns_iff ha).2 ?_ hd
    have h1 : ∃ o, Peg (denotes R) (wholly c!"lmain") s o := by
      have h2 : ∃ o, Peg (denotes R) otherExpr s o := by
        rcases h.call ho with ⟨_, _, _, hq⟩ | ⟨_, hq⟩ | ⟨_, _, _, hq⟩ <;> exact ⟨_, hq⟩
      obtain ⟨o', h2⟩ := h2
      have h3 : ∃ o, Peg (denotes R) (.not (wholly c!"lmain")) s o := by
        cases h2 with
        | and_ok h2 _ => exact ⟨_, h2⟩
        | and_fail h2 => exact ⟨_, h2⟩
        | and_crit h2 => exact ⟨_, h2⟩
        | and_tail_fail h2 _ => exact ⟨_, h2⟩
        | and_tail_crit h2 _ => exact ⟨_, h2⟩
      obtain ⟨o'', h3⟩ := h3
      cases h3 with
      | not_ok h3 => exact ⟨_, h3⟩
      | not_fail h3 => exact ⟨_, h3⟩
      | not_crit h3 => exact ⟨_, h3⟩
    obtain ⟨o', h1⟩ := h1
    obtain ⟨o1, h2, _⟩ := h.whole_iff.1 h1
    exact ⟨o1, h2⟩
  have np : ∀ R, parse s R ≠ .panic := fun R => C16_no_panic_on_ascii R ha
  rcases hA : parse s A with t | e | _ | _
  · obtain ⟨e, he⟩ := err1 ⟨t, hA⟩
    rw [he]; simp
  · obtain ⟨t, ht⟩ := ok1 ⟨e, hA⟩
    rw [ht]; simp
  · exact absurd hA (np A)
  · rw [div1 hA]; simp

example : (∃ t, parse c!"abb" (sideBySide otherExpr exAs exAs) = .ok t) ∧ ∃ e, parse c!"aab" (sideBySide otherExpr exAs exAs) = .err e :=
  ⟨(C72_other (sideBySide_is _ exAs_unique exAs_unique) (by decide)).1.2 ⟨_, exAs_abb⟩,
    (C72_other (sideBySide_is _ exAs_unique exAs_unique) (by decide)).2.1.2 ⟨_, exAs_aab⟩⟩

/-! ### The accepted sets of texts are closed under these -/

/-- **C72**: for any two sets of rules there is one for the texts that both accept, and one for the ASCII texts that the first
refuses; and, if the first returns on every ASCII text, and without a critical error, one for the texts that one of them accepts.
All three are built by renaming rules, `merge` and `add`. -/
theorem C72_closed {A B : SetOfRules} (hA : UniqueKeys A) (hB : UniqueKeys B) :
    (∃ R, ∀ s, (∃ t, parse s R = .ok t) ↔ (∃ t, parse s A = .ok t) ∧ ∃ t, parse s B = .ok t) ∧
    (∃ R, ∀ s, (∃ t, parse s R = .ok t) ↔ Ascii s ∧ ∃ e, parse s A = .err e) ∧
    ((∀ s, Ascii s → parse s A ≠ .diverge ∧ ∀ e, parse s A = .err e → e.priority = .normal) →
      ∃ R, ∀ s, (∃ t, parse s R = .ok t) ↔ (∃ t, parse s A = .ok t) ∨ ∃ t, parse s B = .ok t) := by
  refine ⟨⟨_, fun s => (C72_both (sideBySide_is bothExpr hA hB) s).1⟩, ⟨sideBySide otherExpr A B, fun s => ?_⟩, fun hn => ⟨sideBySide eitherExpr A B, fun s => ?_⟩⟩
  · constructor
    · rintro ⟨t, h⟩
      have ha := C17_ok_only_on_ascii h
      exact ⟨ha, (C72_other (sideBySide_is otherExpr hA hB) ha).1.1 ⟨t, h⟩⟩
    · rintro ⟨ha, h⟩
      exact (C72_other (sideBySide_is otherExpr hA hB) ha).1.2 h
  · have key := (C72_either (sideBySide_is eitherExpr hA hB) s).1
    constructor
    · rintro ⟨t, h⟩
      rcases (key t).1 h with ⟨u, h, _⟩ | ⟨_, u, h, _⟩
      · exact .inl ⟨u, h⟩
      · exact .inr ⟨u, h⟩
    · rintro (⟨u, h⟩ | ⟨u, h⟩)
      · exact ⟨_, (key _).2 (.inl ⟨u, h, rfl⟩)⟩
      · have ha := C17_ok_only_on_ascii h
        obtain ⟨h1, h2⟩ := hn s ha
        rcases hp : parse s A with t | e | _ | _
        · exact ⟨_, (key _).2 (.inl ⟨t, hp, rfl⟩)⟩
        · exact ⟨_, (key _).2 (.inr ⟨⟨e, hp, h2 e hp⟩, u, h, rfl⟩)⟩
        · exact absurd hp (C16_no_panic_on_ascii A ha)
        · exact absurd hp h1

end DP
