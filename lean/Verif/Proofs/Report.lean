/-
The errors of the parser are the ones prescribed by Spec/Report.lean.
-/
import Verif.Proofs.Api
import Verif.Spec.Report

namespace DP
open Spec

/-! ### Determinism -/

/-- comparing a literal with a text: what is left after it, or what is left at the mismatch -/
def litScan : Str → Str → Str ⊕ Str
  | [], s => .inl s
  | _ :: _, [] => .inr []
  | c :: l, d :: s => if c = d then litScan l s else .inr s

theorem litScan_match (l r : Str) : litScan l (l ++ r) = .inl r := by
  induction l with
  | nil => rfl
  | cons c l ih => simp [litScan, ih]

theorem litScan_differs {c d : Char} (h : c ≠ d) (a b r : Str) :
    litScan (a ++ c :: b) (a ++ d :: r) = .inr r := by
  induction a with
  | nil => simp [litScan, h]
  | cons x a ih => simp [litScan, ih]

theorem litScan_short (a : Str) (c : Char) (b : Str) : litScan (a ++ c :: b) a = .inr [] := by
  induction a with
  | nil => rfl
  | cons x a ih => simp [litScan, ih]

theorem litScan_elim (l s : Str) :
    (∃ r, s = l ++ r ∧ litScan l s = .inl r) ∨
    (∃ a c b d r, l = a ++ c :: b ∧ s = a ++ d :: r ∧ c ≠ d ∧ litScan l s = .inr r) ∨
    (∃ c b, l = s ++ c :: b ∧ litScan l s = .inr []) := by
  induction l generalizing s with
  | nil => exact Or.inl ⟨s, rfl, rfl⟩
  | cons c l ih =>
    cases s with
    | nil => exact Or.inr (Or.inr ⟨c, l, rfl, rfl⟩)
    | cons d s =>
      by_cases h : c = d
      · subst h
        simp only [litScan, if_true]
        rcases ih s with ⟨r, h1, h2⟩ | ⟨a, x, b, y, r, h1, h2, h3, h4⟩ | ⟨x, b, h1, h2⟩
        · exact Or.inl ⟨r, by rw [h1]; rfl, h2⟩
        · exact Or.inr (Or.inl ⟨c :: a, x, b, y, r, by rw [h1]; rfl, by rw [h2]; rfl, h3, h4⟩)
        · exact Or.inr (Or.inr ⟨x, b, by rw [h1]; rfl, h2⟩)
      · exact Or.inr (Or.inl ⟨[], c, l, d, s, rfl, rfl, h, by simp [litScan, h]⟩)

/-- the report of a literal, as a function -/
def litReport (l s : Str) (j : Journal) : Report :=
  match litScan l s with
  | .inl r => .ok r [.val l] j
  | .inr r => .bad ⟨.literal l, .normal, r, j.rules⟩

theorem reports_lit {G tr l j s} : Reports G tr (.simple (.literal l)) j s (litReport l s j) := by
  unfold litReport
  rcases litScan_elim l s with ⟨r, h1, h2⟩ | ⟨a, c, b, d, r, h1, h2, h3, h4⟩ | ⟨c, b, h1, h2⟩
  · rw [h2, h1]; exact .lit_ok _ _ _
  · rw [h4, h1, h2]; exact .lit_differs _ _ _ _ _ _ h3
  · rw [h2, h1]; exact .lit_short _ _ _ _

theorem reports_lit_inv {G tr l j s o} (h : Reports G tr (.simple (.literal l)) j s o) :
    o = litReport l s j := by
  unfold litReport
  cases h with
  | lit_ok _ r => rw [litScan_match]
  | lit_differs a c b d r j hne => rw [litScan_differs hne]
  | lit_short a c b => rw [litScan_short]

/-- There is at most one report. -/
theorem reports_det {G tr e j s o} (h : Reports G tr e j s o) : ∀ {o'}, Reports G tr e j s o' → o = o' := by
  induction h with
  | lit_ok l r => intro o' h'; rw [reports_lit_inv h', ← reports_lit_inv (G := G) (tr := tr) (.lit_ok _ _ _)]
  | lit_differs a c b d r j hne =>
    intro o' h'
    rw [reports_lit_inv h', ← reports_lit_inv (G := G) (tr := tr) (.lit_differs a c b d r j hne)]
  | lit_short a c b =>
    intro o' h'
    rw [reports_lit_inv h', ← reports_lit_inv (G := G) (tr := tr) (.lit_short a c b _)]
  | class_ok cs rs c r j hc => intro o' h'; cases h' <;> first | rfl | contradiction
  | class_differs cs rs c r j hc => intro o' h'; cases h' <;> first | rfl | contradiction
  | class_end cs rs => intro o' h'; cases h'; rfl
  | dot_ok => intro o' h'; cases h'; rfl
  | dot_end => intro o' h'; cases h'; rfl
  | eof_ok => intro o' h'; cases h'; rfl
  | eof_differs => intro o' h'; cases h'; rfl
  | error => intro o' h'; cases h'; rfl
  | and_nil => intro o' h'; cases h'; rfl
  | or_nil => intro o' h'; cases h'; rfl
  | and_ok _ _ ih1 ih2 => intro o' h'; cases h' <;> grind
  | and_bad _ ih => intro o' h'; cases h' <;> grind
  | and_tail_bad _ _ ih1 ih2 => intro o' h'; cases h' <;> grind
  | or_ok _ ih => intro o' h'; cases h' <;> grind
  | or_crit _ _ ih => intro o' h'; cases h' <;> grind
  | or_last _ _ ih => intro o' h'; cases h' <;> grind
  | or_next_ok _ _ _ ih1 ih2 => intro o' h'; cases h' <;> grind
  | or_next_bad _ _ _ ih1 ih2 => intro o' h'; cases h' <;> grind
  | not_ok _ ih => intro o' h'; cases h' <;> grind
  | not_bad _ ih => intro o' h'; cases h' <;> grind
  | rep_full => intro o' h'; cases h' <;> first | rfl | contradiction
  | rep_more _ _ _ ih1 ih2 => intro o' h'; cases h' <;> grind
  | rep_stop _ _ _ ih => intro o' h'; cases h' <;> grind
  | rep_crit _ _ _ ih => intro o' h'; cases h' <;> grind
  | rep_few _ _ _ ih => intro o' h'; cases h' <;> grind
  | rep_more_bad _ _ _ ih1 ih2 => intro o' h'; cases h' <;> grind
  | call_ok _ _ ih => intro o' h'; cases h' <;> grind
  | call_bad _ _ ih => intro o' h'; cases h' <;> grind
  | call_missing => intro o' h'; cases h' <;> grind

/-! ### The report refines the outcome -/

theorem worse_prio {f g : Fault} (h : f.prio = .normal) : (worse f g).prio = g.prio := by
  unfold worse
  split
  · rename_i h'; rw [h, h'.1]
  · rfl

theorem worse_crit {f g : Fault} (h : g.prio = .critical) : worse f g = g := by
  unfold worse; rw [if_neg]; rw [h]; simp

theorem outcome_bad_cases (f : Fault) :
    (f.prio = .normal ∧ (Report.bad f).outcome = .fail) ∨
    (f.prio = .critical ∧ (Report.bad f).outcome = .crit f.why f.rest) := by
  unfold Report.outcome
  cases h : f.prio <;> simp [h]

theorem reports_peg {G tr e j s o} (h : Reports G tr e j s o) : Peg G e s o.outcome := by
  induction h with
  | lit_ok l r => exact .lit_ok _ _
  | lit_differs a c b d r j hne =>
    refine .lit_fail _ _ ?_
    rw [List.prefix_append_right_inj, List.cons_prefix_cons]
    exact fun h => hne h.1
  | lit_short a c b =>
    refine .lit_fail _ _ ?_
    intro h
    have := h.length_le
    simp at this
    omega
  | class_ok cs rs c r j hc => exact .class_ok _ _ _ _ hc
  | class_differs cs rs c r j hc => exact .class_fail _ _ _ _ hc
  | class_end cs rs => exact .class_end _ _
  | dot_ok => exact .dot_ok _ _
  | dot_end => exact .dot_end
  | eof_ok => exact .eof_ok
  | eof_differs => exact .eof_fail _ _
  | error => exact .error _ _
  | and_nil => exact .and_nil _
  | or_nil => exact .or_nil _
  | and_ok _ _ ih1 ih2 => exact .and_ok ih1 ih2
  | @and_bad e es s f j _ ih =>
    rcases outcome_bad_cases f with ⟨_, h⟩ | ⟨_, h⟩ <;> rw [h] at ih ⊢
    · exact .and_fail ih
    · exact .and_crit ih
  | @and_tail_bad e es s r ns f j j' _ _ ih1 ih2 =>
    rcases outcome_bad_cases f with ⟨_, h⟩ | ⟨_, h⟩ <;> rw [h] at ih2 ⊢
    · exact .and_tail_fail ih1 ih2
    · exact .and_tail_crit ih1 ih2
  | or_ok _ ih => exact .or_ok ih
  | @or_crit e es s f j _ hp ih =>
    rcases outcome_bad_cases f with ⟨h', h⟩ | ⟨_, h⟩ <;> rw [h] at ih ⊢
    · rw [hp] at h'; cases h'
    · exact .or_crit ih
  | @or_last e s f j _ hp ih =>
    rcases outcome_bad_cases f with ⟨_, h⟩ | ⟨h', h⟩ <;> rw [h] at ih ⊢
    · exact .or_next ih (.or_nil _)
    · rw [hp] at h'; cases h'
  | @or_next_ok e e' es s f r ns j j' _ hp _ ih1 ih2 =>
    rcases outcome_bad_cases f with ⟨_, h⟩ | ⟨h', h⟩
    · rw [h] at ih1; exact .or_next ih1 ih2
    · rw [hp] at h'; cases h'
  | @or_next_bad e e' es s f g j _ hp _ ih1 ih2 =>
    rcases outcome_bad_cases f with ⟨_, h⟩ | ⟨h', h⟩
    · rw [h] at ih1
      have : (Report.bad (worse f g)).outcome = (Report.bad g).outcome := by
        have hw := worse_prio (g := g) hp
        cases hg : g.prio with
        | normal => rw [hg] at hw; simp only [Report.outcome, hg, hw]
        | critical => rw [worse_crit hg]
      rw [this]
      exact .or_next ih1 ih2
    · rw [hp] at h'; cases h'
  | not_ok _ ih => exact .not_ok ih
  | @not_bad e s f j _ ih =>
    rcases outcome_bad_cases f with ⟨_, h⟩ | ⟨_, h⟩ <;> rw [h] at ih
    · exact .not_fail ih
    · exact .not_crit ih
  | rep_full => exact .rep_full _ _ _
  | rep_more h _ _ ih1 ih2 => exact .rep_more h ih1 ih2
  | @rep_stop e mx s f j h0 _ hp ih =>
    rcases outcome_bad_cases f with ⟨_, h⟩ | ⟨h', h⟩
    · rw [h] at ih; exact .rep_stop h0 ih
    · rw [hp] at h'; cases h'
  | @rep_crit e mx s f j h0 _ hp ih =>
    rcases outcome_bad_cases f with ⟨h', h⟩ | ⟨_, h⟩ <;> rw [h] at ih ⊢
    · rw [hp] at h'; cases h'
    · exact .rep_crit h0 ih
  | @rep_few e mn mx s f j h0 hm _ ih =>
    rcases outcome_bad_cases f with ⟨_, h⟩ | ⟨_, h⟩ <;> rw [h] at ih ⊢
    · exact .rep_few h0 hm ih
    · exact .rep_crit h0 ih
  | @rep_more_bad e mn mx s r ns f j j' h0 _ _ ih1 ih2 =>
    rcases outcome_bad_cases f with ⟨_, h⟩ | ⟨_, h⟩ <;> rw [h] at ih2 ⊢
    · exact .rep_more_fail h0 ih1 ih2
    · exact .rep_more_crit h0 ih1 ih2
  | call_ok hg _ ih => exact .call_ok hg ih
  | @call_bad n e s f j hg _ ih =>
    rcases outcome_bad_cases f with ⟨_, h⟩ | ⟨_, h⟩ <;> rw [h] at ih ⊢
    · exact .call_fail hg ih
    · exact .call_crit hg ih
  | call_missing hg => exact .call_missing hg

/-! ### Describing faults -/

theorem byteLen_eq_zero {s : Str} (h : byteLen s = 0) : s = [] := by
  have := length_le_byteLen s
  cases s with
  | nil => rfl
  | cons c s => simp only [List.length_cons] at this; omega

theorem dropBytes_iff : ∀ (s : Str) (n : Nat) (r : Str),
    dropBytes n s = some r ↔ ∃ a, s = a ++ r ∧ byteLen a = n := by
  intro s
  induction s with
  | nil =>
    intro n r
    cases n with
    | zero =>
      simp only [dropBytes, Option.some.injEq]
      constructor
      · rintro rfl; exact ⟨[], rfl, rfl⟩
      · rintro ⟨a, h1, _⟩; simp at h1; exact h1.2.symm
    | succ n =>
      simp only [dropBytes]
      constructor
      · rintro ⟨⟩
      · rintro ⟨a, h1, h2⟩; simp at h1; rw [h1.1] at h2; simp [byteLen] at h2
  | cons c s ih =>
    intro n r
    cases n with
    | zero =>
      simp only [dropBytes, Option.some.injEq]
      constructor
      · rintro rfl; exact ⟨[], rfl, rfl⟩
      · rintro ⟨a, h1, h2⟩; rw [byteLen_eq_zero h2] at h1; exact h1
    | succ n =>
      simp only [dropBytes]
      constructor
      · intro h
        split at h
        · rename_i hle
          obtain ⟨a, h1, h2⟩ := (ih _ _).1 h
          exact ⟨c :: a, by rw [h1]; rfl, by simp only [byteLen, h2]; omega⟩
        · cases h
      · rintro ⟨a, h1, h2⟩
        cases a with
        | nil => simp [byteLen] at h2
        | cons d a =>
          simp only [List.cons_append, List.cons.injEq] at h1
          obtain ⟨rfl, h1⟩ := h1
          simp only [byteLen] at h2
          rw [if_pos (by omega)]
          exact (ih _ _).2 ⟨a, h1, by omega⟩

theorem takeBytes_iff : ∀ (s : Str) (n : Nat) (b : Str),
    takeBytes n s = some b ↔ ∃ c, s = b ++ c ∧ byteLen b = n := by
  intro s
  induction s with
  | nil =>
    intro n r
    cases n with
    | zero =>
      simp only [takeBytes, Option.some.injEq]
      constructor
      · rintro rfl; exact ⟨[], rfl, rfl⟩
      · rintro ⟨a, h1, _⟩; simp at h1; exact h1.1.symm
    | succ n =>
      simp only [takeBytes]
      constructor
      · rintro ⟨⟩
      · rintro ⟨a, h1, h2⟩; simp at h1; rw [h1.1] at h2; simp [byteLen] at h2
  | cons c s ih =>
    intro n r
    cases n with
    | zero =>
      simp only [takeBytes, Option.some.injEq]
      constructor
      · rintro rfl; exact ⟨_, rfl, rfl⟩
      · rintro ⟨a, _, h2⟩; exact (byteLen_eq_zero h2).symm
    | succ n =>
      simp only [takeBytes]
      constructor
      · intro h
        split at h
        · rename_i hle
          rw [Option.map_eq_some_iff] at h
          obtain ⟨b, hb, rfl⟩ := h
          obtain ⟨a, h1, h2⟩ := (ih _ _).1 hb
          exact ⟨a, by rw [h1]; rfl, by simp only [byteLen, h2]; omega⟩
        · cases h
      · rintro ⟨a, h1, h2⟩
        cases r with
        | nil => simp [byteLen] at h2
        | cons d r =>
          simp only [List.cons_append, List.cons.injEq] at h1
          obtain ⟨rfl, h1⟩ := h1
          simp only [byteLen] at h2
          rw [if_pos (by omega), Option.map_eq_some_iff]
          exact ⟨r, (ih _ _).2 ⟨a, h1, by omega⟩, rfl⟩

theorem slice_iff {s : Str} {i j : Nat} {b : Str} :
    slice s i j = some b ↔ ∃ a c, s = a ++ b ++ c ∧ byteLen a = i ∧ byteLen (a ++ b) = j := by
  unfold slice
  constructor
  · intro h
    split at h
    · rename_i hle
      rw [Option.bind_eq_some_iff] at h
      obtain ⟨r, h1, h2⟩ := h
      obtain ⟨a, h3, h4⟩ := (dropBytes_iff _ _ _).1 h1
      obtain ⟨c, h5, h6⟩ := (takeBytes_iff _ _ _).1 h2
      exact ⟨a, c, by rw [h3, h5]; simp, h4, by rw [byteLen_append, h4, h6]; omega⟩
    · cases h
  · rintro ⟨a, c, h1, h2, h3⟩
    rw [byteLen_append] at h3
    rw [if_pos (by omega), Option.bind_eq_some_iff]
    exact ⟨b ++ c, (dropBytes_iff _ _ _).2 ⟨a, by rw [h1]; simp, h2⟩,
      (takeBytes_iff _ _ _).2 ⟨c, rfl, by omega⟩⟩

theorem sees_iff {text pre rest b : Str} {p : Pos} (hs : text = pre ++ rest) (hc : CoordsOf pre p) :
    Sees text rest b ↔ slice text p.startLine p.n = some b := by
  rw [slice_iff, hc.startLine, hc.n]
  constructor
  · rintro ⟨pre', a, c, h1, h2, h3, h4⟩
    have : pre' = pre := List.append_cancel_right (h1.symm.trans hs)
    subst this
    exact ⟨a, c, h2, h3, h4⟩
  · rintro ⟨a, c, h2, h3, h4⟩; exact ⟨pre, a, c, hs, h2, h3, h4⟩

theorem coords_unique {pre p q} (h : CoordsOf pre p) (h' : CoordsOf pre q) : p = q := by
  obtain ⟨a1, a2, a3, a4⟩ := h
  obtain ⟨b1, b2, b3, b4⟩ := h'
  cases p; cases q
  simp only at *
  simp [*]

/-- A fault is described by exactly one error value. -/
theorem describes_unique {text f e e'} (h : Describes text f e) (h' : Describes text f e') : e = e' := by
  obtain ⟨a1, a2, a3, ⟨p, a4, a5⟩, a6, a7⟩ := h
  obtain ⟨b1, b2, b3, ⟨q, b4, b5⟩, b6, b7⟩ := h'
  have hpq : p = q := List.append_cancel_right (a4.symm.trans b4)
  subst hpq
  have := coords_unique a5 b5
  have hl : e.lineBefore = e'.lineBefore := by
    have h1 := (sees_iff a4 a5).1 a6
    have h2 := (sees_iff b4 a5).1 b6
    rw [h1] at h2; exact Option.some.inj h2
  cases e; cases e'
  simp only at *
  simp [*]

theorem describes_raise {text st j d p} {α : Type} (hI : Inv text st) (hw : st.walkingRules = j) :
    (∃ e, (raise st d p : Out Error α) = .err e ∧ Describes text ⟨d, p, st.itParsing, j⟩ e) ∨
    ((raise st d p : Out Error α) = .panic ∧ Blind text st.itParsing) := by
  obtain ⟨ht, pre, hs, hc⟩ := hI
  have hb := fun b => sees_iff (b := b) hs hc
  unfold raise fromStatus
  rw [ht]
  cases hsl : slice text st.pos.startLine st.pos.n with
  | none =>
    refine Or.inr ⟨rfl, fun b h => ?_⟩
    rw [hb, hsl] at h; cases h
  | some lb =>
    refine Or.inl ⟨_, rfl, rfl, rfl, hw, ⟨pre, hs, hc⟩, (hb lb).2 hsl, ?_⟩
    simp only
    congr 1
    funext c
    simp [bne]
    grind

theorem sees_ascii {text pre rest : Str} (ha : Ascii text) (hs : text = pre ++ rest) (b : Str) :
    Sees text rest b ↔ b = lastLine pre := by
  let p : Pos := ⟨pre.length, pre.count '\n', (sinceBreak pre).length, pre.length - (lastLine pre).length⟩
  have hc : CoordsOf pre p := ⟨rfl, rfl, rfl, rfl⟩
  rw [sees_iff hs hc, hs, slice_line (hs ▸ ha) hc, Option.some.injEq]
  exact eq_comm

theorem not_blind {text pre rest : Str} (ha : Ascii text) (hs : text = pre ++ rest) : ¬ Blind text rest :=
  fun h => h _ ((sees_ascii ha hs _).2 rfl)

/-! ### The parser follows the specification -/

/-- the remembered error tells the remembered fault -/
def KeptOK (text : Str) : Option Fault → Option Error → Prop
  | none, none => True
  | some f, some e => Describes text f e
  | _, _ => False

/-- The status is at a point of the text, and its bookkeeping is the journal. -/
structure Sim (t : Str) (tr : Bool) (j : Journal) (st : Status) : Prop extends Inv t st where
  trace : st.traceRules = tr
  walking : st.walkingRules = j.rules
  kept : KeptOK t j.kept st.potentialError

theorem sim_get {text tr j st st' c} (h : Sim text tr j st) (hg : getChar st = .ok (st', c)) :
    Sim text tr j st' := by
  obtain ⟨_, _, h1, h2, h3, _⟩ := getChar_ok hg
  exact ⟨inv_get h.toInv hg, by rw [h2]; exact h.trace, by rw [h3]; exact h.walking,
    by rw [h1]; exact h.kept⟩

theorem sim_enter {text tr j st} (hS : Sim text tr j st) (n : Str) :
    Sim text tr (j.enter tr n) (if st.traceRules then st.pushRule (c!"r:" ++ n) else st) := by
  rw [hS.trace]
  unfold Journal.enter
  cases tr with
  | true => exact ⟨⟨hS.text, hS.at_⟩, hS.trace, by simp [Status.pushRule, hS.walking], hS.kept⟩
  | false => exact ⟨hS.toInv, hS.trace, by simp [hS.walking], hS.kept⟩

/-- What the parser returns for `e` is the report. -/
def RepRes (G : Str → Option Expr) (text : Str) (tr : Bool) (e : Expr) (j : Journal) (rest : Str) :
    Out Error (Status × List Node) → Prop
  | .ok x => ∃ j', Sim text tr j' x.1 ∧ Reports G tr e j rest (.ok x.1.itParsing x.2 j')
  | .err er => ∃ f, Describes text f er ∧ Reports G tr e j rest (.bad f)
  | .panic => Crashes G tr text e j rest
  | .diverge => True

/-- as `RepRes`, for loops which extend the accumulator `acc` -/
def RepResAcc (G : Str → Option Expr) (text : Str) (tr : Bool) (e : Expr) (j : Journal) (rest : Str)
    (acc : List Node) : Out Error (Status × List Node) → Prop
  | .ok x => ∃ ns j', x.2 = acc ++ ns ∧ Sim text tr j' x.1 ∧
      Reports G tr e j rest (.ok x.1.itParsing ns j')
  | .err er => ∃ f, Describes text f er ∧ Reports G tr e j rest (.bad f)
  | .panic => Crashes G tr text e j rest
  | .diverge => True

theorem repRes_raise {G text tr e j rest st d p} (hI : Sim text tr j st)
    (h : Reports G tr e j rest (.bad ⟨d, p, st.itParsing, j.rules⟩))
    (hc : Blind text st.itParsing → Crashes G tr text e j rest) :
    RepRes G text tr e j rest (raise st d p) := by
  rcases describes_raise (α := Status × List Node) (d := d) (p := p) hI.toInv hI.walking with
    ⟨er, h1, h2⟩ | ⟨h1, h2⟩
  · rw [h1]; exact ⟨_, h2, h⟩
  · rw [h1]; exact hc h2

theorem repRes_raise_atom {G text tr a j rest st d p} (hI : Sim text tr j st)
    (h : Reports G tr (.simple a) j rest (.bad ⟨d, p, st.itParsing, j.rules⟩)) :
    RepRes G text tr (.simple a) j rest (raise st d p) :=
  repRes_raise hI h (fun hb => .atom h hb)

theorem literalLoop_report {text tr j} (lit : Str) : ∀ (l : Str) (st : Status),
    Sim text tr j st →
    match parseLiteralLoop lit st l with
    | .ok st' => Sim text tr j st' ∧ litScan l st.itParsing = .inl st'.itParsing
    | .err e => ∃ r, Describes text ⟨.literal lit, .normal, r, j.rules⟩ e ∧ litScan l st.itParsing = .inr r
    | .panic => ∃ r, Blind text r ∧ litScan l st.itParsing = .inr r
    | .diverge => False := by
  intro l
  induction l with
  | nil => intro st hS; simpa [parseLiteralLoop, litScan] using hS
  | cons ch l ih =>
    intro st hS
    unfold parseLiteralLoop parseChar
    cases hg : getChar st with
    | error st' =>
      have hn := getChar_error_nil hg
      rw [getChar_error hg]
      simp only
      rcases describes_raise (α := Status) (d := .literal lit) (p := .normal) hS.toInv hS.walking with
        ⟨er, h1, h2⟩ | ⟨h1, h2⟩
      · rw [h1]
        rw [hn] at h2 ⊢
        exact ⟨[], h2, rfl⟩
      · rw [h1]
        rw [hn] at h2 ⊢
        exact ⟨[], h2, rfl⟩
    | ok x =>
      obtain ⟨st', c⟩ := x
      have hc := (getChar_ok hg).1
      have hS' := sim_get hS hg
      simp only
      by_cases he : ch = c
      · have := ih st' hS'
        simp only [he, if_true]
        rw [hc]
        simp only [litScan, if_true]
        exact this
      · simp only [he, if_false]
        rcases describes_raise (α := Status) (d := .literal lit) (p := .normal) hS'.toInv hS'.walking with
          ⟨er, h1, h2⟩ | ⟨h1, h2⟩
        · rw [h1, hc]
          exact ⟨_, h2, by simp [litScan, he]⟩
        · rw [h1, hc]
          exact ⟨_, h2, by simp [litScan, he]⟩

theorem atom_report {G text tr j st} (hS : Sim text tr j st) (a : Atom) :
    RepRes G text tr (.simple a) j st.itParsing (parseAtomAsExpr st a) := by
  rw [parseAtomAsExpr_eq]
  cases a with
  | literal l =>
    have := literalLoop_report l l st hS
    have hr := reports_lit (G := G) (tr := tr) (l := l) (j := j) (s := st.itParsing)
    unfold litReport at hr
    simp only [parseAtom, parseLiteral]
    cases h : parseLiteralLoop l st l with
    | ok st' => rw [h] at this; rw [this.2] at hr; exact ⟨j, this.1, hr⟩
    | err e => rw [h] at this; obtain ⟨r, h1, h2⟩ := this; rw [h2] at hr; exact ⟨_, h1, hr⟩
    | panic =>
      rw [h] at this
      obtain ⟨r, h1, h2⟩ := this
      rw [h2] at hr
      exact .atom hr h1
    | diverge => trivial
  | error m =>
    simp only [parseAtom, parseError]
    rw [asExpr_raise]
    exact repRes_raise_atom hS (.error _ _ _)
  | mtch cs rs =>
    simp only [parseAtom, parseMatch]
    cases hg : getChar st with
    | error st' =>
      simp only
      rw [asExpr_raise, getChar_error hg]
      refine repRes_raise_atom hS ?_
      rw [getChar_error_nil hg]
      exact .class_end _ _ _
    | ok x =>
      obtain ⟨st', c⟩ := x
      simp only
      have hc := (getChar_ok hg).1
      have hm := matchChar_iff cs rs c
      split
      · rename_i ht
        rw [hc]
        exact ⟨j, sim_get hS hg, .class_ok _ _ _ _ _ (hm.1 ht)⟩
      · rename_i ht
        rw [asExpr_raise, hc]
        exact repRes_raise_atom (sim_get hS hg) (.class_differs _ _ _ _ _ (fun h => ht (hm.2 h)))
  | dot =>
    simp only [parseAtom, parseDot]
    cases hg : getChar st with
    | error st' =>
      simp only
      rw [asExpr_raise, getChar_error hg]
      refine repRes_raise_atom hS ?_
      rw [getChar_error_nil hg]
      exact .dot_end _
    | ok x =>
      simp only
      rw [(getChar_ok hg).1]
      exact ⟨j, sim_get hS hg, .dot_ok _ _ _⟩
  | eof =>
    simp only [parseAtom, parseEof]
    cases hg : getChar st with
    | error st' =>
      simp only
      rw [getChar_error hg]
      refine ⟨j, hS, ?_⟩
      rw [getChar_error_nil hg]
      exact .eof_ok _
    | ok x =>
      simp only
      rw [asExpr_raise, (getChar_ok hg).1]
      exact repRes_raise_atom (sim_get hS hg) (.eof_differs _ _ _)

theorem worse_assoc {f g h : Fault} (hg : g.prio = .normal) :
    worse (worse f g) h = worse f (worse g h) := by
  unfold worse
  cases hh : h.prio with
  | critical => simp [hh]
  | normal => simp only [hg, true_and]; grind

theorem describes_len {text f e} (h : Describes text f e) : e.pos.n + f.rest.length = text.length := by
  obtain ⟨pre, h1, h2⟩ := h.pos
  rw [h2.n, h1, List.length_append]

theorem deepErr_worse {text fa a f er} (hfa : Describes text fa a) (hf : Describes text f er)
    (ha : fa.prio = .normal) (hn : f.prio = .normal) :
    ∃ x, deepErr (some a) er = some x ∧ Describes text (worse fa f) x := by
  have l1 := describes_len hfa
  have l2 := describes_len hf
  unfold deepErr worse
  simp only [hfa.priority, hf.priority, ha, hn, Prio.gt, true_and]
  by_cases h : a.pos.n > er.pos.n
  · rw [if_pos (by omega)]; exact ⟨a, by simp [h], hfa⟩
  · rw [if_neg (by omega)]; exact ⟨er, by simp [h], hf⟩

/-- the result of the loop over the alternatives -/
def RepResOr (G : Str → Option Expr) (text : Str) (tr : Bool) (es : List Expr) (j : Journal) (rest : Str)
    (fa : Option Fault) : Out Error (Status × List Node) → Prop
  | .ok x => ∃ j', Sim text tr j' x.1 ∧ Reports G tr (.or es) j rest (.ok x.1.itParsing x.2 j')
  | .err er => match fa with
    | none => ∃ f, Describes text f er ∧ Reports G tr (.or es) j rest (.bad f)
    | some fa => (es = [] ∧ Describes text fa er) ∨
        (es ≠ [] ∧ ∃ f, Describes text (worse fa f) er ∧ Reports G tr (.or es) j rest (.bad f))
  | .panic => Crashes G tr text (.or es) j rest
  | .diverge => True

/-- The parsing functions report as specified. -/
theorem report (R : SetOfRules) (hB : RulesBoundsOK R) (text : Str) (tr : Bool) : ∀ f,
    (∀ st n j, Sim text tr j st → RepRes (grammar R) text tr (.ruleName n) j st.itParsing
      (asExpr (parseRuleName R f st n))) ∧
    (∀ st e j, Sim text tr j st → BoundsOK e →
      RepRes (grammar R) text tr e j st.itParsing (parseExpr R f st e)) ∧
    (∀ st es j acc, Sim text tr j st → (∀ e ∈ es, BoundsOK e) →
      RepResAcc (grammar R) text tr (.and es) j st.itParsing acc (parseAnd R f st es acc)) ∧
    (∀ st es j acc fa, Sim text tr j st → (∀ e ∈ es, BoundsOK e) →
      (match acc, fa with
        | none, none => True
        | some a, some fa => Describes text fa a ∧ fa.prio = .normal
        | _, _ => False) →
      RepResOr (grammar R) text tr es j st.itParsing fa (parseOr R f st es acc)) ∧
    (∀ e mn mx st k j acc, Sim text tr j st → BoundsOK e → (∀ m, mx = some m → k < m ∧ mn ≤ m) →
      RepResAcc (grammar R) text tr (.rep e (mn - k) (mx.map (· - k))) j st.itParsing acc
        (parseRepeat R f e mn mx st k acc)) := by
  intro f
  induction f with
  | zero =>
    refine ⟨?_, ?_, ?_, ?_, ?_⟩ <;> intros
    · simp [parseRuleName, asExpr, RepRes]
    · simp [parseExpr, RepRes]
    · simp [parseAnd, RepResAcc]
    · simp [parseOr, RepResOr]
    · simp [parseRepeat, RepResAcc]
  | succ f ih =>
    obtain ⟨ih1, ih2, ih3, ih4, ih5⟩ := ih
    refine ⟨?_, ?_, ?_, ?_, ?_⟩
    · intro st n j hS
      rw [parseRuleName]
      generalize hst : (if st.traceRules = true then st.pushRule (c!"r:" ++ n) else st) = st1
      have hi1 : st1.itParsing = st.itParsing := by
        rw [← hst]; split <;> rfl
      have hS1 : Sim text tr (j.enter tr n) st1 := by
        rw [← hst]; exact sim_enter hS n
      rw [← hi1]
      cases hg : R.get n with
      | none =>
        simp only
        rw [asExpr_raise]
        rcases describes_raise (α := Status × List Node) (d := .missingRule n)
          (p := .critical) hS1.toInv hS1.walking with ⟨er, h1, h2⟩ | ⟨h1, h2⟩
        · rw [h1]; exact ⟨_, h2, .call_missing hg⟩
        · rw [h1]; exact .call_missing hg h2
      | some e =>
        have := ih2 st1 e _ hS1 (getBounds hB hg)
        simp only
        cases h : parseExpr R f st1 e with
        | ok x =>
          rw [h] at this
          obtain ⟨j', h1, h2⟩ := this
          exact ⟨j', h1, .call_ok hg h2⟩
        | err er =>
          rw [h] at this
          obtain ⟨f, h1, h2⟩ := this
          exact ⟨f, h1, .call_bad hg h2⟩
        | panic => rw [h] at this; exact .call hg this
        | diverge => trivial
    · intro st e j hS hb
      cases hb with
      | simple a => rw [parseExpr]; exact atom_report hS a
      | @and es hes =>
        rw [parseExpr]
        have := ih3 st es j [] hS hes
        cases h : parseAnd R f st es [] with
        | ok x =>
          rw [h] at this
          obtain ⟨ns, j', h1, h2, h3⟩ := this
          simp only [List.nil_append] at h1
          exact ⟨j', h2, by rw [h1]; exact h3⟩
        | err e => rw [h] at this; exact this
        | panic => rw [h] at this; exact this
        | diverge => trivial
      | @or es hes =>
        rw [parseExpr]
        have := ih4 st es j none none hS hes trivial
        cases h : parseOr R f st es none <;> rw [h] at this <;> exact this
      | @not e hb =>
        rw [parseExpr]
        have := ih2 st e j hS hb
        cases h : parseExpr R f st e with
        | ok x =>
          rw [h] at this
          obtain ⟨j', _, h2⟩ := this
          exact repRes_raise hS (.not_ok h2) (fun hb => .not_ok h2 hb)
        | err er =>
          rw [h] at this
          obtain ⟨f, _, h2⟩ := this
          exact ⟨j, hS, .not_bad h2⟩
        | panic => rw [h] at this; exact .not_head this
        | diverge => trivial
      | @rep e mn mx hb hm =>
        rw [parseExpr]
        have := ih5 e mn mx st 0 j [] hS hb (fun m h => ⟨(hm m h).1, (hm m h).2⟩)
        have hmap : mx.map (· - 0) = mx := by cases mx <;> rfl
        rw [hmap] at this
        cases h : parseRepeat R f e mn mx st 0 [] with
        | ok x =>
          rw [h] at this
          obtain ⟨ns, j', h1, h2, h3⟩ := this
          simp only [List.nil_append] at h1
          exact ⟨j', h2, by rw [h1]; exact h3⟩
        | err e => rw [h] at this; exact this
        | panic => rw [h] at this; exact this
        | diverge => trivial
      | ruleName n => rw [parseExpr_ruleName]; exact ih1 st n j hS
    · intro st es j acc hS hb
      cases es with
      | nil => rw [parseAnd]; exact ⟨[], j, by simp, hS, .and_nil _ _⟩
      | cons e es =>
        rw [parseAnd]
        have h1 := ih2 st e j hS (hb e (by simp))
        cases h : parseExpr R f st e with
        | ok x =>
          rw [h] at h1
          obtain ⟨st', vn⟩ := x
          obtain ⟨j', hS', h1⟩ := h1
          have h2 := ih3 st' es j' (acc ++ vn) hS' (fun e he => hb e (by simp [he]))
          simp only
          cases h3 : parseAnd R f st' es (acc ++ vn) with
          | ok y =>
            rw [h3] at h2
            obtain ⟨ns, j'', h4, h5, h6⟩ := h2
            exact ⟨vn ++ ns, j'', by rw [h4]; simp, h5, .and_ok h1 h6⟩
          | err er =>
            rw [h3] at h2
            obtain ⟨g, h4, h5⟩ := h2
            exact ⟨g, h4, .and_tail_bad h1 h5⟩
          | panic => rw [h3] at h2; exact .and_tail h1 h2
          | diverge => trivial
        | err er =>
          rw [h] at h1
          obtain ⟨g, h4, h5⟩ := h1
          exact ⟨g, h4, .and_bad h5⟩
        | panic => rw [h] at h1; exact .and_head h1
        | diverge => trivial
    · intro st es j acc fa hS hb hacc
      cases es with
      | nil =>
        cases acc with
        | none =>
          cases fa with
          | some _ => exact hacc.elim
          | none =>
            rw [parseOr]
            have := repRes_raise (G := grammar R) (e := .or []) (rest := st.itParsing) (d := .orLogic)
              (p := .normal) hS (.or_nil _ _) (fun hb => .or_nil hb)
            cases h : (raise st .orLogic .normal : Out Error (Status × List Node)) <;>
              rw [h] at this <;> exact this
        | some a =>
          cases fa with
          | none => exact hacc.elim
          | some fa => rw [parseOr]; exact Or.inl ⟨rfl, hacc.1⟩
      | cons e es =>
        rw [parseOr]
        have h1 := ih2 st e j hS (hb e (by simp))
        cases h : parseExpr R f st e with
        | ok x =>
          rw [h] at h1
          obtain ⟨j', h2, h3⟩ := h1
          exact ⟨j', h2, .or_ok h3⟩
        | err er =>
          rw [h] at h1
          obtain ⟨g, hd, hr⟩ := h1
          simp only
          split
          · rename_i hcr
            rw [hd.priority] at hcr
            cases fa with
            | none => exact ⟨g, hd, .or_crit hr hcr⟩
            | some fa => exact Or.inr ⟨by simp, g, by rw [worse_crit hcr]; exact hd, .or_crit hr hcr⟩
          · rename_i hcr
            have hn : g.prio = .normal := by
              rw [hd.priority] at hcr
              cases hp : g.prio with
              | normal => rfl
              | critical => exact absurd hp hcr
            -- the error carried on
            obtain ⟨x, ga, hx, hxd, hga, hgn⟩ : ∃ x ga, deepErr acc er = some x ∧ Describes text ga x ∧
                ga = (match fa with | none => g | some fa => worse fa g) ∧ ga.prio = .normal := by
              cases acc with
              | none =>
                cases fa with
                | some _ => exact hacc.elim
                | none => exact ⟨er, g, rfl, hd, rfl, hn⟩
              | some a =>
                cases fa with
                | none => exact hacc.elim
                | some fa =>
                  obtain ⟨x, h1, h2⟩ := deepErr_worse hacc.1 hd hacc.2 hn
                  exact ⟨x, worse fa g, h1, h2, rfl, by rw [worse_prio hacc.2]; exact hn⟩
            have h2 := ih4 st es j (deepErr acc er) (some ga) hS (fun e he => hb e (by simp [he]))
              (by rw [hx]; exact ⟨hxd, hgn⟩)
            rw [hx] at h2 ⊢
            cases h3 : parseOr R f st es (some x) with
            | ok y =>
              rw [h3] at h2
              obtain ⟨j', h4, h5⟩ := h2
              cases es with
              | nil => cases h5
              | cons e' es => exact ⟨j', h4, .or_next_ok hr hn h5⟩
            | err er' =>
              rw [h3] at h2
              rcases h2 with ⟨rfl, h4⟩ | ⟨hne, g', h4, h5⟩
              · cases fa with
                | none => subst hga; exact ⟨_, h4, .or_last hr hn⟩
                | some fa => subst hga; exact Or.inr ⟨by simp, g, h4, .or_last hr hn⟩
              · cases es with
                | nil => exact absurd rfl hne
                | cons e' es =>
                  cases fa with
                  | none => subst hga; exact ⟨_, h4, .or_next_bad hr hn h5⟩
                  | some fa =>
                    subst hga
                    rw [worse_assoc hn] at h4
                    exact Or.inr ⟨by simp, _, h4, .or_next_bad hr hn h5⟩
            | panic =>
              rw [h3] at h2
              cases es with
              | nil =>
                exfalso
                cases f with
                | zero => rw [parseOr] at h3; cases h3
                | succ f => rw [parseOr] at h3; cases h3
              | cons e' es => exact .or_next hr hn h2
            | diverge => trivial
        | panic => rw [h] at h1; exact .or_head h1
        | diverge => trivial
    · intro e mn mx st k j acc hS hb hm
      rw [parseRepeat]
      have h1 := ih2 st e j hS hb
      have hne : mx.map (· - k) ≠ some 0 := by
        cases mx with
        | none => simp
        | some m => have := (hm m rfl).1; simp; omega
      have hmm : (mx.map (· - k)).map (· - 1) = mx.map (· - (k + 1)) := by
        cases mx with
        | none => rfl
        | some m => simp; omega
      have hmn : mn - k - 1 = mn - (k + 1) := by omega
      cases h : parseExpr R f st e with
      | ok x =>
        obtain ⟨st', vn⟩ := x
        rw [h] at h1
        obtain ⟨j', hS', h1⟩ := h1
        simp only
        split
        · rename_i ht
          cases mx with
          | none => simp [touchMaxBound] at ht
          | some m =>
            have hk : k + 1 = m := by simpa [touchMaxBound] using ht
            refine ⟨vn ++ [], j', by simp, hS', .rep_more hne h1 ?_⟩
            have : (Option.map (· - 1) (Option.map (· - k) (some m))) = some 0 := by simp; omega
            rw [this]
            exact .rep_full _ _ _ _
        · rename_i ht
          have hm' : ∀ m, mx = some m → k + 1 < m ∧ mn ≤ m := by
            intro m hmx
            have := hm m hmx
            refine ⟨?_, this.2⟩
            subst hmx
            have : k + 1 ≠ m := by simpa [touchMaxBound] using ht
            omega
          have h2 := ih5 e mn mx st' (k + 1) j' (acc ++ vn) hS' hb hm'
          rw [← hmm, ← hmn] at h2
          cases h3 : parseRepeat R f e mn mx st' (k + 1) (acc ++ vn) with
          | ok y =>
            rw [h3] at h2
            obtain ⟨ns, j'', h4, h5, h6⟩ := h2
            exact ⟨vn ++ ns, j'', by rw [h4]; simp, h5, .rep_more hne h1 h6⟩
          | err er =>
            rw [h3] at h2
            obtain ⟨g, h4, h5⟩ := h2
            exact ⟨g, h4, .rep_more_bad hne h1 h5⟩
          | panic => rw [h3] at h2; exact .rep_more hne h1 h2
          | diverge => trivial
      | err er =>
        rw [h] at h1
        obtain ⟨g, hd, hr⟩ := h1
        simp only
        split
        · rename_i hbig
          have hk : mn - k = 0 := by
            have : mn ≤ k := by simpa [bigMinBound] using hbig
            omega
          rw [hk]
          split
          · rename_i hcr
            rw [hd.priority] at hcr
            exact ⟨g, hd, .rep_crit hne hr hcr⟩
          · rename_i hcr
            rw [hd.priority] at hcr
            have hn : g.prio = .normal := by
              cases hp : g.prio with
              | normal => rfl
              | critical => exact absurd hp hcr
            exact ⟨[], ⟨some g, j.rules⟩, by simp, ⟨⟨hS.text, hS.at_⟩, hS.trace, hS.walking, hd⟩,
              .rep_stop hne hr hn⟩
        · rename_i hbig
          have hk : 0 < mn - k := by
            have : ¬ mn ≤ k := by simpa [bigMinBound] using hbig
            omega
          exact ⟨g, hd, .rep_few hne hk hr⟩
      | panic => rw [h] at h1; exact .rep_head hne h1
      | diverge => trivial

/-- The parser reports as specified, for every rule set. -/
theorem runExpr_report {R : SetOfRules} {text tr j st e} (hS : Sim text tr j st) :
    RepRes (denotes R) text tr (effective e) j st.itParsing (runExpr R st e) := by
  rcases runExpr_elim R st e with h | ⟨f, h⟩
  · rw [h]; trivial
  · rw [← h]
    have := (report (effectiveRules R) (rulesBoundsOK_effective R) text tr f).2.1 st (effective e) j hS
      (boundsOK_effective e)
    rw [parseExpr_effective, grammar_effective] at this
    exact this

theorem runRule_report {R : SetOfRules} {text tr j st n} (hS : Sim text tr j st) :
    RepRes (denotes R) text tr (.ruleName n) j st.itParsing (asExpr (runRule R st n)) := by
  have := runExpr_report (R := R) (e := .ruleName n) hS
  rw [runExpr_ruleName, effective] at this
  exact this

/-- what the parser returns when there is a report -/
def AgreesRep (text : Str) (tr : Bool) (x : Out Error (Status × List Node)) : Report → Prop
  | .ok r ns j' => ∃ st', x = .ok (st', ns) ∧ st'.itParsing = r ∧ Sim text tr j' st'
  | .bad f => ∃ er, x = .err er ∧ Describes text f er

/-- Where there is a report, the parser finishes with it, unless it panics. -/
theorem runExpr_of_reports {R : SetOfRules} {text tr j st e o} (hS : Sim text tr j st)
    (h : Reports (denotes R) tr (effective e) j st.itParsing o) :
    runExpr R st e = .panic ∨ AgreesRep text tr (runExpr R st e) o := by
  have h1 := runExpr_report (R := R) (e := e) hS
  have h2 := runExpr_complete (R := R) (e := e) hS.toInv (reports_peg h)
  cases hx : runExpr R st e with
  | ok x =>
    obtain ⟨st', ns⟩ := x
    rw [hx] at h1
    obtain ⟨j', h3, h4⟩ := h1
    have := reports_det h h4
    subst this
    exact Or.inr ⟨st', rfl, rfl, h3⟩
  | err er =>
    rw [hx] at h1
    obtain ⟨f, h3, h4⟩ := h1
    have := reports_det h h4
    subst this
    exact Or.inr ⟨er, rfl, h3⟩
  | panic => exact Or.inl rfl
  | diverge =>
    rw [hx] at h2
    rcases h2 with h2 | h2
    · cases h2
    · exfalso
      generalize o.outcome = oo at h2
      cases oo <;> obtain ⟨_, h3, _⟩ := h2 <;> cases h3

/-! ### Panics -/

/-- What "the parser panics" means for each kind of expression (loops are generalised over their
accumulators). -/
def PanicsAt (R : SetOfRules) (st : Status) : Expr → Prop
  | .and es => ∀ acc, runAnd R st es acc = .panic
  | .or es => ∀ acc, (es = [] → acc = none) → runOr R st es acc = .panic
  | .rep e a b => ∀ mn mx k acc, a = mn - k → b = mx.map (· - k) → (∀ m, mx = some m → k < m) →
      runRepeat R e mn mx st k acc = .panic
  | e => runExpr R st e = .panic

theorem panicsAt_expr {R st e} (hb : BoundsOK e) (h : PanicsAt R st e) : runExpr R st e = .panic := by
  cases hb with
  | simple a => exact h
  | and _ => rw [runExpr_and]; exact h []
  | or _ => rw [runExpr_or]; exact h none (fun _ => rfl)
  | not _ => exact h
  | @rep e mn mx _ hm =>
    rw [runExpr_rep]
    exact h mn mx 0 [] rfl (by cases mx <;> rfl) (fun m hmx => (hm m hmx).1)
  | ruleName => exact h

theorem reports_run {R : SetOfRules} (hB : RulesBoundsOK R) {text tr j st e o} (hb : BoundsOK e)
    (hS : Sim text tr j st) (h : Reports (grammar R) tr e j st.itParsing o) :
    runExpr R st e = .panic ∨ AgreesRep text tr (runExpr R st e) o := by
  refine runExpr_of_reports hS ?_
  rw [denotes_of_boundsOK hB, effective_of_boundsOK hb]; exact h

theorem raise_blind {text st d p} {α : Type} (hI : Inv text st) (h : Blind text st.itParsing) :
    (raise st d p : Out Error α) = .panic := by
  rcases describes_raise (α := α) (d := d) (p := p) hI rfl with ⟨e, _, h2⟩ | ⟨h1, _⟩
  · exact (h _ h2.lineBefore).elim
  · exact h1

theorem crash_panics {R : SetOfRules} (hB : RulesBoundsOK R) {text tr e j s}
    (h : Crashes (grammar R) tr text e j s) :
    SubOK e → ∀ st, Sim text tr j st → st.itParsing = s → PanicsAt R st e := by
  induction h with
  | @atom a j s f hr hbl =>
    intro _ st hS hs
    subst hs
    rcases reports_run hB (.simple a) hS hr with h | ⟨er, _, h⟩
    · exact h
    · exact (hbl _ h.lineBefore).elim
  | @and_head e es j s _ ih =>
    intro hb st hS hs acc
    have hb' := boundsOK_and_cons hb
    rw [runAnd_cons, panicsAt_expr hb'.1 (ih (subOK_of hb'.1) st hS hs)]
  | @and_tail e es j s r ns j' hr _ ih =>
    intro hb st hS hs acc
    subst hs
    have hb' := boundsOK_and_cons hb
    rw [runAnd_cons]
    rcases reports_run hB hb'.1 hS hr with h | ⟨st', h, h2, h3⟩
    · rw [h]
    · rw [h]; exact ih (subOK_of hb'.2) st' h3 h2 _
  | @or_nil j s hbl =>
    intro _ st hS hs acc hacc
    subst hs
    rw [hacc rfl, runOr_nil]
    exact raise_blind hS.toInv hbl
  | @or_head e es j s _ ih =>
    intro hb st hS hs acc _
    have hb' := boundsOK_or_cons hb
    rw [runOr_cons, panicsAt_expr hb'.1 (ih (subOK_of hb'.1) st hS hs)]
  | @or_next e e' es j s f hr hn _ ih =>
    intro hb st hS hs acc _
    subst hs
    have hb' := boundsOK_or_cons hb
    rw [runOr_cons]
    rcases reports_run hB hb'.1 hS hr with h | ⟨er, h, h2⟩
    · rw [h]
    · rw [h]
      simp only
      rw [if_neg (by rw [h2.priority, hn]; simp)]
      exact ih (subOK_of hb'.2) st hS rfl _ (by simp)
  | @not_head e j s _ ih =>
    intro hb st hS hs
    have hb' := boundsOK_not hb
    show runExpr R st (.not e) = .panic
    rw [runExpr_not, panicsAt_expr hb' (ih (subOK_of hb') st hS hs)]
  | @not_ok e j s r ns j' hr hbl =>
    intro hb st hS hs
    subst hs
    show runExpr R st (.not e) = .panic
    rw [runExpr_not]
    rcases reports_run hB (boundsOK_not hb) hS hr with h | ⟨st', h, _⟩
    · rw [h]
    · rw [h]; exact raise_blind hS.toInv hbl
  | @rep_head e a b j s _ _ ih =>
    intro hb st hS hs mn mx k acc _ _ _
    have hb' : BoundsOK e := hb
    rw [runRepeat_eq, panicsAt_expr hb' (ih (subOK_of hb') st hS hs)]
  | @rep_more e a b j s r ns j' hne hr _ ih =>
    intro hb st hS hs mn mx k acc ha hbm hk
    have hb' : BoundsOK e := hb
    subst hs
    rw [runRepeat_eq]
    rcases reports_run hB hb' hS hr with h | ⟨st', h, h2, h3⟩
    · rw [h]
    · rw [h]
      simp only
      subst ha hbm
      by_cases hm : mx = some (k + 1)
      · -- the repetition is over: nothing is left to crash
        rw [if_pos hm]
        exfalso
        subst hm
        rename_i hcr
        simp only [Option.map_some, Nat.add_sub_cancel_left, Nat.sub_self] at hcr
        cases hcr with
        | rep_head h0 => exact h0 rfl
        | rep_more h0 => exact h0 rfl
      · rw [if_neg hm]
        refine ih hb st' h3 h2 mn mx (k + 1) _ (by omega) ?_ ?_
        · cases mx with
          | none => rfl
          | some m => simp; omega
        · intro m hmx
          have := hk m hmx
          have : m ≠ k + 1 := fun h => hm (by rw [hmx, h])
          omega
  | @call n e j s hg _ ih =>
    intro _ st hS hs
    show runExpr R st (.ruleName n) = .panic
    have hS1 : Sim text tr (j.enter tr n) (if st.traceRules then st.pushRule (c!"r:" ++ n) else st) :=
      sim_enter hS n
    have hb := getBounds hB hg
    rw [runExpr_ruleName, runRule_eq]
    have hg' : R.get n = some e := hg
    simp only [hg']
    rw [panicsAt_expr hb (ih (subOK_of hb) _ hS1 (by rw [← hs]; split <;> rfl))]
    rfl
  | @call_missing n j s hg hbl =>
    intro _ st hS hs
    show runExpr R st (.ruleName n) = .panic
    have hS1 : Sim text tr (j.enter tr n) (if st.traceRules then st.pushRule (c!"r:" ++ n) else st) :=
      sim_enter hS n
    rw [runExpr_ruleName, runRule_eq]
    have hg' : R.get n = none := hg
    simp only [hg']
    have hi : (if st.traceRules then st.pushRule (c!"r:" ++ n) else st).itParsing = s := by
      rw [← hs]; split <;> rfl
    rw [raise_blind hS1.toInv (by rw [hi]; exact hbl)]
    rfl

theorem runExpr_effective (R st e) : runExpr (effectiveRules R) st (effective e) = runExpr R st e := by
  unfold runExpr
  simp only [parseExpr_effective]

/-- The parser panics exactly where a fault is raised at a blind point. -/
theorem runExpr_panic_iff {R : SetOfRules} {text tr j st e} (hS : Sim text tr j st) :
    runExpr R st e = .panic ↔ Crashes (denotes R) tr text (effective e) j st.itParsing := by
  constructor
  · intro h
    have := runExpr_report (R := R) (e := e) hS
    rw [h] at this; exact this
  · intro h
    rw [← grammar_effective] at h
    have := panicsAt_expr (boundsOK_effective e)
      (crash_panics (rulesBoundsOK_effective R) h (subOK_of (boundsOK_effective e)) st hS rfl)
    rw [runExpr_effective] at this
    exact this

/-- the text left by a match, or at a fault -/
def leftOf : Report → Str
  | .ok r _ _ => r
  | .bad f => f.rest

theorem reports_suffix {G tr e j s o} (h : Reports G tr e j s o) : leftOf o <:+ s := by
  induction h with
  | lit_ok l r => exact ⟨l, rfl⟩
  | lit_differs a c b d r => exact ⟨a ++ [d], by simp [leftOf]⟩
  | lit_short a => exact ⟨a, by simp [leftOf]⟩
  | class_ok cs rs c r => exact ⟨[c], rfl⟩
  | class_differs cs rs c r => exact ⟨[c], rfl⟩
  | dot_ok c r => exact ⟨[c], rfl⟩
  | eof_differs c r => exact ⟨[c], rfl⟩
  | and_ok _ _ ih1 ih2 => exact List.IsSuffix.trans ih2 ih1
  | and_tail_bad _ _ ih1 ih2 => exact List.IsSuffix.trans ih2 ih1
  | or_ok _ ih => exact ih
  | or_crit _ _ ih => exact ih
  | or_last _ _ ih => exact ih
  | and_bad _ ih => exact ih
  | or_next_ok _ _ _ _ ih => exact ih
  | or_next_bad _ _ _ ih1 ih2 =>
    show (worse _ _).rest <:+ _
    unfold worse
    split
    · exact ih1
    · exact ih2
  | rep_more _ _ _ ih1 ih2 => exact List.IsSuffix.trans ih2 ih1
  | rep_more_bad _ _ _ ih1 ih2 => exact List.IsSuffix.trans ih2 ih1
  | rep_crit _ _ _ ih => exact ih
  | rep_few _ _ _ ih => exact ih
  | call_ok _ _ ih => exact ih
  | call_bad _ _ ih => exact ih
  | _ => exact List.suffix_refl _

/-- Nothing is blind in an ASCII text. -/
theorem crash_ascii {G tr text e j s} (ha : Ascii text) (hs : s <:+ text) : ¬ Crashes G tr text e j s := by
  intro h
  have blind : ∀ {r}, r <:+ text → ¬ Blind text r := by
    rintro r ⟨p, hp⟩; exact not_blind ha hp.symm
  induction h with
  | atom hr hb => exact blind (List.IsSuffix.trans (reports_suffix hr) hs) hb
  | and_head _ ih => exact ih hs
  | and_tail hr _ ih => exact ih (List.IsSuffix.trans (reports_suffix hr) hs)
  | or_nil hb => exact blind hs hb
  | or_head _ ih => exact ih hs
  | or_next _ _ _ ih => exact ih hs
  | not_head _ ih => exact ih hs
  | not_ok _ hb => exact blind hs hb
  | rep_head _ _ ih => exact ih hs
  | rep_more _ hr _ ih => exact ih (List.IsSuffix.trans (reports_suffix hr) hs)
  | call _ _ ih => exact ih hs
  | call_missing _ hb => exact blind hs hb

end DP
