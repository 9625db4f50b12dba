/-
A checker for certificates that rules are LL(1): the rules that derive the empty text, and for each rule the
ranges of the characters it begins with and of those that can follow it.
-/
import Verif.Proofs.ContextFree
import Verif.Proofs.WfCheck

namespace DP
open Spec

/-- ranges of characters -/
abbrev Ranges := List (Char × Char)

/-- ranges of characters, or the end of the text -/
abbrev Ends := List (Option (Char × Char))

def InRange (c : Char) (r : Char × Char) : Prop := r.1.toNat ≤ c.toNat ∧ c.toNat ≤ r.2.toNat

def InRanges (rs : Ranges) (c : Char) : Prop := ∃ r ∈ rs, InRange c r

def InEnds : Ends → Option Char → Prop
  | f, none => none ∈ f
  | f, some c => ∃ r, some r ∈ f ∧ InRange c r

mutual
/-- the characters the expression may begin with -/
def firstE (nul : List Str) (fst : Str → Ranges) : Expr → Ranges
  | .simple (.literal []) => []
  | .simple (.literal (c :: _)) => [(c, c)]
  | .simple (.mtch cs rs) => cs.map (fun c => (c, c)) ++ rs
  | .simple .dot => [(Char.ofNat 0, Char.ofNat 0x10ffff)]
  | .simple _ => []
  | .and es => firstSeq nul fst es
  | .or es => firstAny nul fst es
  | .not _ => []
  | .rep e _ _ => firstE nul fst e
  | .ruleName n => fst n
def firstSeq (nul : List Str) (fst : Str → Ranges) : List Expr → Ranges
  | [] => []
  | e :: es => firstE nul fst e ++ if nulE nul e then firstSeq nul fst es else []
def firstAny (nul : List Str) (fst : Str → Ranges) : List Expr → Ranges
  | [] => []
  | e :: es => firstE nul fst e ++ firstAny nul fst es
end

def apart (a b : Char × Char) : Bool := decide (a.2.toNat < b.1.toNat) || decide (b.2.toNat < a.1.toNat)

def disjointR (rs : Ranges) (f : Ends) : Bool :=
  rs.all fun r => f.all fun x => match x with | none => true | some y => apart r y

mutual
/-- one character decides in the expression, when what is in `f` can follow it -/
def decides (nul : List Str) (fst : Str → Ranges) (fol : Str → Ends) (f : Ends) : Expr → Bool
  | .simple _ => true
  | .and es => decidesSeq nul fst fol f es
  | .or es => decidesAny nul fst fol f es
  | .not _ => true
  | .rep e _ _ => !nulE nul e && disjointR (firstE nul fst e) f &&
      decides nul fst fol ((firstE nul fst e).map some ++ f) e
  | .ruleName n => f.all fun x => (fol n).contains x
def decidesSeq (nul : List Str) (fst : Str → Ranges) (fol : Str → Ends) (f : Ends) : List Expr → Bool
  | [] => true
  | e :: es => decides nul fst fol ((firstSeq nul fst es).map some ++ if nulAll nul es then f else []) e &&
      decidesSeq nul fst fol f es
def decidesAny (nul : List Str) (fst : Str → Ranges) (fol : Str → Ends) (f : Ends) : List Expr → Bool
  | [] => true
  | e :: es => (es.isEmpty || (!nulE nul e && disjointR (firstE nul fst e) ((firstAny nul fst es).map some) &&
        (!nulAny nul es || disjointR (firstE nul fst e) f))) &&
      decides nul fst fol f e && decidesAny nul fst fol f es
end

mutual
def plainE (R : SetOfRules) : Expr → Bool
  | .simple (.literal _) => true
  | .simple (.mtch _ _) => true
  | .simple .dot => true
  | .simple _ => false
  | .and es => plainAll R es
  | .or es => plainAll R es
  | .not _ => false
  | .rep e _ _ => plainE R e
  | .ruleName n => (denotes R n).isSome
def plainAll (R : SetOfRules) : List Expr → Bool
  | [] => true
  | e :: es => plainE R e && plainAll R es
end

/-- the certificate check -/
def ll1Check (R : SetOfRules) (nul : List Str) (fst : Str → Ranges) (fol : Str → Ends) : Bool :=
  (fol c!"main").contains none &&
  R.entries.all fun ne =>
    let e := effective ne.2
    (!nulE nul e || nul.contains ne.1) &&
    (firstE nul fst e).all (fun r => (fst ne.1).contains r) &&
    decides nul fst fol (fol ne.1) e &&
    plainE R e

theorem apart_sound {a b : Char × Char} {c} (h : apart a b = true) (ha : InRange c a) (hb : InRange c b) : False := by
  unfold apart at h
  unfold InRange at ha hb
  simp only [Bool.or_eq_true, decide_eq_true_eq] at h
  omega

theorem disjointR_sound {rs f c} (h : disjointR rs f = true) (hr : InRanges rs c) : ¬ InEnds f (some c) := by
  rintro ⟨y, hy, hcy⟩
  obtain ⟨r, hr, hcr⟩ := hr
  have := List.all_eq_true.mp (List.all_eq_true.mp h r hr) _ hy
  exact apart_sound this hcr hcy

section
variable {G : Str → Option Expr} {nul : List Str} {fst : Str → Ranges} {fol : Str → Ends}

theorem canEmpty_of_gen {e u ns} (h : Gen G e u ns) : u = [] → CanEmpty G e := by
  induction h with
  | lit l => rintro rfl; exact .lit
  | cls _ => rintro ⟨⟩
  | dot _ => rintro ⟨⟩
  | eof => intro _; exact .eof
  | nil => intro _; exact .and (by simp)
  | cons _ _ ih1 ih2 =>
    intro h
    have h := List.append_eq_nil_iff.mp h
    have h1 := ih1 h.1
    have h2 := ih2 h.2
    cases h2 with
    | and h2 =>
      refine .and fun x hx => ?_
      rcases List.mem_cons.mp hx with rfl | hx
      · exact h1
      · exact h2 x hx
  | or hm _ ih => intro h; exact .or hm (ih h)
  | not e => intro _; exact .not e
  | none e mx => intro _; exact .rep_zero e mx
  | full e mn => intro _; exact .rep_max_zero e mn
  | more _ _ _ ih1 _ => intro h; exact .rep (ih1 (List.append_eq_nil_iff.mp h).1)
  | call hg _ ih => intro h; exact .call hg (ih h)

theorem nulE_of_nullable (hN : ∀ n e, G n = some e → nulE nul e = true → nul.contains n = true) {e}
    (h : Nullable G e) : nulE nul e = true := by
  obtain ⟨ns, h⟩ := h
  exact nulE_of_canEmpty hN (canEmpty_of_gen h rfl)

theorem inRanges_append {a b : Ranges} {c} : InRanges (a ++ b) c ↔ InRanges a c ∨ InRanges b c := by
  constructor
  · rintro ⟨r, hr, h⟩
    rcases List.mem_append.mp hr with hr | hr
    · exact .inl ⟨r, hr, h⟩
    · exact .inr ⟨r, hr, h⟩
  · rintro (⟨r, hr, h⟩ | ⟨r, hr, h⟩)
    · exact ⟨r, by simp [hr], h⟩
    · exact ⟨r, by simp [hr], h⟩

theorem firstAny_mem {es e c} (hm : e ∈ es) (h : InRanges (firstE nul fst e) c) : InRanges (firstAny nul fst es) c := by
  induction es with
  | nil => cases hm
  | cons x es ih =>
    rw [firstAny, inRanges_append]
    rcases List.mem_cons.mp hm with rfl | hm
    · exact .inl h
    · exact .inr (ih hm)

theorem firstE_of_gen (hN : ∀ n e, G n = some e → nulE nul e = true → nul.contains n = true)
    (hF : ∀ n e, G n = some e → ∀ c, InRanges (firstE nul fst e) c → InRanges (fst n) c) {e u ns}
    (h : Gen G e u ns) : ∀ c v, u = c :: v → InRanges (firstE nul fst e) c := by
  induction h with
  | lit l => rintro c v rfl; rw [firstE]; exact ⟨(c, c), by simp, by simp [InRange]⟩
  | @cls cs rs d h =>
    rintro c v ⟨⟩
    rw [firstE, inRanges_append]
    rcases h with h | ⟨r, hr, h⟩
    · exact .inl ⟨(d, d), List.mem_map.mpr ⟨d, h, rfl⟩, by simp [InRange]⟩
    · exact .inr ⟨r, hr, h⟩
  | dot d =>
    rintro c v ⟨⟩
    rw [firstE]
    refine ⟨_, List.mem_singleton.mpr rfl, Nat.zero_le _, ?_⟩
    have h1 := d.valid
    have h2 : (Char.ofNat 0x10ffff).toNat = 1114111 := rfl
    show d.toNat ≤ (Char.ofNat 0x10ffff).toNat
    rw [h2]
    unfold UInt32.isValidChar Nat.isValidChar at h1
    unfold Char.toNat
    omega
  | eof => rintro c v ⟨⟩
  | nil => rintro c v ⟨⟩
  | @cons e es u v ns ms h1 h2 ih1 ih2 =>
    intro c w h
    rw [firstE, firstSeq, inRanges_append]
    cases u with
    | nil =>
      have h3 := ih2 c w h
      rw [firstE] at h3
      rw [if_pos (nulE_of_nullable hN ⟨_, h1⟩)]
      exact .inr h3
    | cons d u =>
      cases h
      exact .inl (ih1 _ _ rfl)
  | or hm _ ih => intro c v h; rw [firstE]; exact firstAny_mem hm (ih c v h)
  | not e => rintro c v ⟨⟩
  | none e mx => rintro c v ⟨⟩
  | full e mn => rintro c v ⟨⟩
  | @more e mn mx u v ns ms _ h1 h2 ih1 ih2 =>
    intro c w h
    rw [firstE]
    cases u with
    | nil =>
      have h3 := ih2 c w h
      rw [firstE] at h3
      exact h3
    | cons d u =>
      cases h
      exact ih1 _ _ rfl
  | call hg _ ih => intro c v h; rw [firstE]; exact hF _ _ hg _ (ih c v h)

theorem inEnds_append {a b : Ends} {x} : InEnds (a ++ b) x ↔ InEnds a x ∨ InEnds b x := by
  cases x with
  | none => simp [InEnds]
  | some c =>
    simp only [InEnds, List.mem_append]
    constructor
    · rintro ⟨r, hr | hr, h⟩
      · exact .inl ⟨r, hr, h⟩
      · exact .inr ⟨r, hr, h⟩
    · rintro (⟨r, hr, h⟩ | ⟨r, hr, h⟩)
      · exact ⟨r, .inl hr, h⟩
      · exact ⟨r, .inr hr, h⟩

theorem inEnds_map {a : Ranges} {c} (h : InRanges a c) : InEnds (a.map some) (some c) := by
  obtain ⟨r, hr, h⟩ := h
  exact ⟨r, List.mem_map.mpr ⟨r, hr, rfl⟩, h⟩

theorem inEnds_sub {a b : Ends} (h : (a.all fun x => b.contains x) = true) {x} (hx : InEnds a x) : InEnds b x := by
  have h := List.all_eq_true.mp h
  cases x with
  | none => exact List.contains_iff_mem.mp (h _ hx)
  | some c =>
    obtain ⟨r, hr, hc⟩ := hx
    exact ⟨r, List.contains_iff_mem.mp (h _ hr), hc⟩

/-- what can follow is in a set with which the expression passed the check -/
theorem decides_of_follow (hN : ∀ n e, G n = some e → nulE nul e = true → nul.contains n = true)
    (hF : ∀ n e, G n = some e → ∀ c, InRanges (firstE nul fst e) c → InRanges (fst n) c)
    (hm : none ∈ fol c!"main")
    (hD : ∀ n e, G n = some e → decides nul fst fol (fol n) e = true)
    {e x} (h : Follow G e x) : ∃ f, InEnds f x ∧ decides nul fst fol f e = true := by
  induction h with
  | main => exact ⟨fol c!"main", hm, by rw [decides]; simp⟩
  | @body n e x hg _ ih =>
    obtain ⟨f, hx, hd⟩ := ih
    rw [decides] at hd
    exact ⟨fol n, inEnds_sub hd hx, hD _ _ hg⟩
  | next _ hc ih =>
    obtain ⟨f, hx, hd⟩ := ih
    rw [decides, decidesSeq, Bool.and_eq_true] at hd
    obtain ⟨u, ns, hc⟩ := hc
    have h1 := firstE_of_gen hN hF hc _ _ rfl
    rw [firstE] at h1
    exact ⟨_, inEnds_append.mpr (.inl (inEnds_map h1)), hd.1⟩
  | last _ hn ih =>
    obtain ⟨f, hx, hd⟩ := ih
    rw [decides, decidesSeq, Bool.and_eq_true] at hd
    have h1 := nulE_of_nullable hN hn
    rw [nulE] at h1
    exact ⟨_, inEnds_append.mpr (.inr (by rw [if_pos h1]; exact hx)), hd.1⟩
  | rest _ ih =>
    obtain ⟨f, hx, hd⟩ := ih
    rw [decides, decidesSeq, Bool.and_eq_true] at hd
    exact ⟨f, hx, by rw [decides]; exact hd.2⟩
  | alternative _ ih =>
    obtain ⟨f, hx, hd⟩ := ih
    rw [decides, decidesAny, Bool.and_eq_true, Bool.and_eq_true] at hd
    exact ⟨f, hx, hd.1.2⟩
  | alternatives _ ih =>
    obtain ⟨f, hx, hd⟩ := ih
    rw [decides, decidesAny, Bool.and_eq_true, Bool.and_eq_true] at hd
    exact ⟨f, hx, by rw [decides]; exact hd.2⟩
  | again _ _ hc ih =>
    obtain ⟨f, hx, hd⟩ := ih
    rw [decides, Bool.and_eq_true] at hd
    obtain ⟨u, ns, hc⟩ := hc
    have h1 := firstE_of_gen hN hF hc _ _ rfl
    rw [firstE] at h1
    exact ⟨_, inEnds_append.mpr (.inl (inEnds_map h1)), hd.2⟩
  | once _ _ _ ih =>
    obtain ⟨f, hx, hd⟩ := ih
    rw [decides, Bool.and_eq_true] at hd
    exact ⟨_, inEnds_append.mpr (.inr hx), hd.2⟩
  | repeats _ _ ih =>
    obtain ⟨f, hx, hd⟩ := ih
    rw [decides] at hd
    exact ⟨f, hx, by rw [decides]; exact hd⟩

theorem ll1_of_decides (hN : ∀ n e, G n = some e → nulE nul e = true → nul.contains n = true)
    (hF : ∀ n e, G n = some e → ∀ c, InRanges (firstE nul fst e) c → InRanges (fst n) c)
    (hm : none ∈ fol c!"main")
    (hD : ∀ n e, G n = some e → decides nul fst fol (fol n) e = true) : LL1 G := by
  constructor
  · intro e e' es x hf
    obtain ⟨f, hx, hd⟩ := decides_of_follow hN hF hm hD hf
    rw [decides, decidesAny, Bool.and_eq_true, Bool.and_eq_true] at hd
    have h1 := hd.1.1
    simp only [List.isEmpty_cons, Bool.false_or, Bool.and_eq_true, Bool.not_eq_true', Bool.or_eq_true] at h1
    refine ⟨fun h => ?_, fun c ⟨u, ns, hc⟩ => ?_⟩
    · rw [nulE_of_nullable hN h] at h1; exact absurd h1.1.1 (by simp)
    · have hc := firstE_of_gen hN hF hc _ _ rfl
      constructor
      · rintro ⟨u, ns, h⟩
        have h := firstE_of_gen hN hF h _ _ rfl
        rw [firstE] at h
        exact disjointR_sound h1.1.2 hc (inEnds_map h)
      · rintro hn rfl
        have hn := nulE_of_nullable hN hn
        rw [nulE] at hn
        rcases h1.2 with h | h
        · rw [hn] at h; cases h
        · exact disjointR_sound h hc hx
  · intro e mx x hf _
    obtain ⟨f, hx, hd⟩ := decides_of_follow hN hF hm hD hf
    rw [decides, Bool.and_eq_true, Bool.and_eq_true] at hd
    refine ⟨fun h => ?_, fun c ⟨u, ns, hc⟩ => ?_⟩
    · rw [nulE_of_nullable hN h] at hd; exact absurd hd.1.1 (by simp)
    · rintro rfl
      exact disjointR_sound hd.1.2 (firstE_of_gen hN hF hc _ _ rfl) hx

end

mutual
theorem plain_of_check {R : SetOfRules} : ∀ {e}, plainE R e = true → Plain (denotes R) e
  | .simple a, h => by
    cases a with
    | literal l => exact .lit l
    | mtch cs rs => exact .cls cs rs
    | dot => exact .dot
    | eof => rw [plainE] at h; cases h; all_goals (intros; contradiction)
    | error m => rw [plainE] at h; cases h; all_goals (intros; contradiction)
  | .and es, h => by rw [plainE] at h; exact .and (plainAll_of_check h)
  | .or es, h => by rw [plainE] at h; exact .or (plainAll_of_check h)
  | .not e, h => by rw [plainE] at h; cases h
  | .rep e mn mx, h => by rw [plainE] at h; exact .rep (plain_of_check h)
  | .ruleName n, h => by
    rw [plainE] at h
    obtain ⟨e, he⟩ := Option.isSome_iff_exists.mp h
    exact .call he
theorem plainAll_of_check {R : SetOfRules} : ∀ {es}, plainAll R es = true → ∀ e ∈ es, Plain (denotes R) e
  | [], _ => by simp
  | e :: es, h => by
    rw [plainAll, Bool.and_eq_true] at h
    intro x hx
    rcases List.mem_cons.mp hx with hx | hx
    · rw [hx]; exact plain_of_check h.1
    · exact plainAll_of_check h.2 x hx
end

/-- A checked certificate proves that the rules are plain and LL(1). -/
theorem ll1_of_check {R : SetOfRules} {nul fst fol} (h : ll1Check R nul fst fol = true) :
    (∀ n e, denotes R n = some e → Plain (denotes R) e) ∧ LL1 (denotes R) := by
  unfold ll1Check at h
  rw [Bool.and_eq_true] at h
  obtain ⟨hm, hall⟩ := h
  have hall : ∀ n e, denotes R n = some e → (nulE nul e = true → nul.contains n = true) ∧
      ((firstE nul fst e).all (fun r => (fst n).contains r)) = true ∧
      decides nul fst fol (fol n) e = true ∧ plainE R e = true := by
    intro n e hg
    unfold denotes grammar at hg
    cases hl : R.entries.lookup n with
    | none => rw [hl] at hg; cases hg
    | some e' =>
      rw [hl] at hg
      simp only [Option.map_some, Option.some.injEq] at hg
      have hm : (n, e') ∈ R.entries := by
        obtain ⟨l1, l2, h1, _⟩ := List.lookup_eq_some_iff.mp hl
        rw [h1]; simp
      have := List.all_eq_true.mp hall (n, e') hm
      simp only [hg, Bool.and_eq_true] at this
      refine ⟨?_, this.1.1.2, this.1.2, this.2⟩
      intro hn
      have h1 := this.1.1.1
      rw [hn] at h1
      simpa using h1
  refine ⟨fun n e hg => plain_of_check (hall n e hg).2.2.2, ll1_of_decides (fun n e hg => (hall n e hg).1) ?_
    (List.contains_iff_mem.mp hm) fun n e hg => (hall n e hg).2.2.1⟩
  rintro n e hg c ⟨r, hr, hc⟩
  exact ⟨r, List.contains_iff_mem.mp (List.all_eq_true.mp (hall n e hg).2.1 r hr), hc⟩

end DP
