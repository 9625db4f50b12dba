/-
C100: `else` belongs to the nearest `if`, and what it costs (src/parser/expression/mod.rs:231-328, src/lib.rs:486-521).
-/
import Verif.Spec.IfElse
import Verif.Props.Levels
import Verif.Props.CalcCost
import Verif.Props.Alike

namespace DP
open Spec

/-- `main = 'i' main ('e' main)? / [..]` -/
def ifRules (i e : Char) (cs : Str) (rs : List (Char × Char)) : SetOfRules :=
  ⟨[(c!"main", .or [.and [.simple (.literal [i]), .ruleName c!"main", .rep (.and [.simple (.literal [e]), .ruleName c!"main"]) 0 (some 1)],
    .simple (.mtch cs rs)])]⟩

/-- `main = 'i' main 'e' main / 'i' main / [..]` -/
def ifRulesTwice (i e : Char) (cs : Str) (rs : List (Char × Char)) : SetOfRules :=
  ⟨[(c!"main", .or [.and [.simple (.literal [i]), .ruleName c!"main", .simple (.literal [e]), .ruleName c!"main"],
    .and [.simple (.literal [i]), .ruleName c!"main"], .simple (.mtch cs rs)])]⟩

/-- the characters of `if` and `else` are different and not statements -/
structure IfC (i e : Char) (cs : Str) (rs : List (Char × Char)) : Prop where
  differ : i ≠ e
  noIf : ¬ InClass cs rs i
  noElse : ¬ InClass cs rs e

section
variable {i e : Char} {cs : Str} {rs : List (Char × Char)}

/-- `if`s without end -/
inductive Stuck (i : Char) (cs : Str) (rs : List (Char × Char)) : Str → Prop
  | nil : Stuck i cs rs []
  | other {c r} : c ≠ i → ¬ InClass cs rs c → Stuck i cs rs (c :: r)
  | more {r} : Stuck i cs rs r → Stuck i cs rs (i :: r)

/-- an `else` can come only where no statement follows -/
def Loose (i e : Char) (cs : Str) (rs : List (Char × Char)) (x : Stmt) (r : Str) : Prop :=
  ¬ x.Closed → ∀ r', r = e :: r' → Stuck i cs rs r'

theorem if_denotes : denotes (ifRules i e cs rs) = grammar (ifRules i e cs rs) :=
  denotes_of_boundsOK (by
    intro ne h
    rw [List.mem_singleton.1 h]
    refine .or fun x hx => ?_
    simp only [List.mem_cons, List.not_mem_nil, or_false] at hx
    rcases hx with rfl | rfl
    · refine .and fun x hx => ?_
      simp only [List.mem_cons, List.not_mem_nil, or_false] at hx
      rcases hx with rfl | rfl | rfl
      · exact .simple _
      · exact .ruleName _
      · refine .rep (.and fun x hx => ?_) (by simp)
        simp only [List.mem_cons, List.not_mem_nil, or_false] at hx
        rcases hx with rfl | rfl
        · exact .simple _
        · exact .ruleName _
    · exact .simple _)

/-- the rule -/
theorem if_main : denotes (ifRules i e cs rs) c!"main" = some (.or [.and [.simple (.literal [i]), .ruleName c!"main",
    .rep (.and [.simple (.literal [e]), .ruleName c!"main"]) 0 (some 1)], .simple (.mtch cs rs)]) := by
  rw [if_denotes]
  rfl

local notation "G" => denotes (ifRules i e cs rs)

theorem stuck_peg (hC : IfC i e cs rs) {u : Str} (h : Stuck i cs rs u) : Peg G (.ruleName c!"main") u .fail := by
  induction h with
  | nil => exact .call_fail if_main (.or_next (.and_fail char_misses_nil) (.or_next (.class_end _ _) (.or_nil _)))
  | other h1 h2 => exact .call_fail if_main (.or_next (.and_fail (char_misses h1)) (.or_next (.class_fail _ _ _ _ h2) (.or_nil _)))
  | more h ih =>
    exact .call_fail if_main (.or_next (.and_tail_fail (.lit_ok [i] _) (.and_fail ih)) (.or_next (.class_fail _ _ _ _ hC.noIf) (.or_nil _)))

theorem else_off {r : Str} (h : ∀ r', r ≠ e :: r') : Peg G (.and [.simple (.literal [e]), .ruleName c!"main"]) r .fail := by
  cases r with
  | nil => exact .and_fail char_misses_nil
  | cons c r => exact .and_fail (char_misses fun hc => h r (by rw [hc]))

theorem stmt_peg (hC : IfC i e cs rs) : ∀ (x : Stmt) (r : Str), x.Over cs rs → x.Nearest → Loose i e cs rs x r →
    Peg G (.ruleName c!"main") (x.str i e ++ r) (.ok r [x.node i e])
  | .base c, r, ho, _, _ => by
    have hc : c ≠ i := fun h => hC.noIf (h ▸ ho)
    exact .call_ok if_main (.or_next (.and_fail (char_misses hc)) (.or_ok (.class_ok _ _ _ _ ho)))
  | .ifThen x, r, ho, hn, hl => by
    have h1 := stmt_peg hC x r ho hn (fun _ => hl id)
    have h2 : Peg G (.rep (.and [.simple (.literal [e]), .ruleName c!"main"]) 0 (some 1)) r (.ok r []) := by
      refine .rep_stop (by simp) ?_
      by_cases hr : ∃ r', r = e :: r'
      · obtain ⟨r', rfl⟩ := hr
        exact .and_tail_fail (.lit_ok [e] r') (.and_fail (stuck_peg hC (hl id r' rfl)))
      · exact else_off fun r' h => hr ⟨r', h⟩
    exact .call_ok if_main (.or_ok (.and_ok (.lit_ok [i] _) (.and_ok h1 (.and_ok h2 (.and_nil _)))))
  | .ifElse x y, r, ho, hn, hl => by
    have h1 := stmt_peg hC x (e :: (y.str i e ++ r)) ho.1 hn.2.1 (fun h => absurd hn.1 h)
    have h2 := stmt_peg hC y r ho.2 hn.2.2 hl
    have h3 : Peg G (.rep (.and [.simple (.literal [e]), .ruleName c!"main"]) 0 (some 1)) (e :: (y.str i e ++ r)) (.ok r ([.val [e], y.node i e] ++ [])) :=
      .rep_more (by simp) (.and_ok (.lit_ok [e] _) (.and_ok h2 (.and_nil _))) (.rep_full _ _ _)
    have h4 : Peg G (.ruleName c!"main") (i :: (x.str i e ++ (e :: (y.str i e ++ r)))) _ :=
      .call_ok if_main (.or_ok (.and_ok (.lit_ok [i] _) (.and_ok h1 (.and_ok h3 (.and_nil _)))))
    simpa [Stmt.str, Stmt.node] using h4

/-- every text starts with a statement or is stuck -/
theorem stmt_or_stuck (hC : IfC i e cs rs) : ∀ (n : Nat) (u : Str), u.length ≤ n →
    (∃ (x : Stmt) (r : Str), x.Over cs rs ∧ x.Nearest ∧ u = x.str i e ++ r ∧ Loose i e cs rs x r) ∨ Stuck i cs rs u
  | _, [], _ => .inr .nil
  | 0, _ :: _, h => by simp at h
  | n + 1, c :: v, h => by
    simp only [List.length_cons, Nat.add_le_add_iff_right] at h
    by_cases hc : InClass cs rs c
    · exact .inl ⟨.base c, v, hc, trivial, rfl, fun h => absurd trivial h⟩
    · by_cases hi : c = i
      · rw [hi]
        clear hc hi c
        rcases stmt_or_stuck hC n v h with ⟨x, r, ho, hn, rfl, hl⟩ | hs
        · by_cases hr : ∃ r', r = e :: r'
          · obtain ⟨r', rfl⟩ := hr
            simp only [List.length_append, List.length_cons] at h
            rcases stmt_or_stuck hC n r' (by omega) with ⟨y, q, ho', hn', rfl, hl'⟩ | hs
            · by_cases hx : x.Closed
              · exact .inl ⟨.ifElse x y, q, ⟨ho, ho'⟩, ⟨hx, hn, hn'⟩, by simp [Stmt.str], hl'⟩
              · have h1 := stuck_peg hC (hl hx _ rfl)
                cases peg_det h1 (stmt_peg hC y q ho' hn' hl')
            · exact .inl ⟨.ifThen x, e :: r', ho, hn, rfl, fun _ q hq => by cases hq; exact hs⟩
          · exact .inl ⟨.ifThen x, r, ho, hn, rfl, fun _ q hq => absurd ⟨q, hq⟩ hr⟩
        · exact .inr (.more hs)
      · exact .inr (.other hi hc)

/-- **C100**: `parse` accepts the texts of statements where each `else` belongs to the nearest `if`, and its tree is this reading. -/
theorem C100_nearest (hC : IfC i e cs rs) (s : Str) (t : Node) : parse s (ifRules i e cs rs) = .ok t ↔
    Ascii s ∧ ∃ x : Stmt, x.Over cs rs ∧ x.Nearest ∧ x.str i e = s ∧ x.node i e = t := by
  rw [parse_iff]
  refine and_congr_right fun _ => ⟨fun h => ?_, ?_⟩
  · rcases stmt_or_stuck hC _ s (Nat.le_refl _) with ⟨x, r, ho, hn, rfl, hl⟩ | hs
    · cases peg_det h (stmt_peg hC x r ho hn hl)
      exact ⟨x, ho, hn, by simp, rfl⟩
    · cases peg_det h (stuck_peg hC hs)
  · rintro ⟨x, ho, hn, rfl, rfl⟩
    have := stmt_peg hC x [] ho hn (fun _ r' h => by cases h)
    rwa [List.append_nil] at this

instance closedDec : (x : Stmt) → Decidable x.Closed
  | .base _ => isTrue trivial
  | .ifThen _ => isFalse id
  | .ifElse _ y => closedDec y

/-- the `else` goes to the last `if` that lacks one -/
def attachElse (z : Stmt) : Stmt → Stmt
  | .base c => .base c
  | .ifThen x => if x.Closed then .ifElse x z else .ifThen (attachElse z x)
  | .ifElse x y => .ifElse x (attachElse z y)

theorem attach_ok {z : Stmt} (hz : z.Nearest) (hzo : z.Over cs rs) : ∀ {x : Stmt}, ¬ x.Closed → x.Nearest → x.Over cs rs →
    (attachElse z x).Nearest ∧ (attachElse z x).Over cs rs ∧ (attachElse z x).str i e = x.str i e ++ e :: z.str i e
  | .base c, h, _, _ => absurd trivial h
  | .ifThen x, _, hn, ho => by
    rw [attachElse]
    split
    · exact ⟨⟨‹_›, hn, hz⟩, ⟨ho, hzo⟩, rfl⟩
    · obtain ⟨h1, h2, h3⟩ := attach_ok hz hzo (x := x) ‹_› hn ho
      exact ⟨h1, h2, by rw [Stmt.str, h3]; rfl⟩
  | .ifElse x y, h, hn, ho => by
    obtain ⟨h1, h2, h3⟩ := attach_ok hz hzo (x := y) h hn.2.2 ho.2
    exact ⟨⟨hn.1, hn.2.1, h1⟩, ⟨ho.1, h2⟩, by rw [attachElse, Stmt.str, h3, Stmt.str]; simp⟩

theorem nearest_reading : ∀ {x : Stmt}, x.Over cs rs → ∃ y : Stmt, y.Over cs rs ∧ y.Nearest ∧ y.str i e = x.str i e
  | .base c, h => ⟨.base c, h, trivial, rfl⟩
  | .ifThen x, h => by
    obtain ⟨y, h1, h2, h3⟩ := nearest_reading (x := x) h
    exact ⟨.ifThen y, h1, h2, by rw [Stmt.str, h3, Stmt.str]⟩
  | .ifElse x z, h => by
    obtain ⟨y, h1, h2, h3⟩ := nearest_reading (x := x) h.1
    obtain ⟨w, h4, h5, h6⟩ := nearest_reading (x := z) h.2
    by_cases hy : y.Closed
    · exact ⟨.ifElse y w, ⟨h1, h4⟩, ⟨hy, h2, h5⟩, by rw [Stmt.str, h3, h6, Stmt.str]⟩
    · obtain ⟨h7, h8, h9⟩ := attach_ok (i := i) (e := e) (x := .ifThen y) h5 h4 id h2 h1
      exact ⟨_, h8, h7, by rw [h9, Stmt.str, h3, h6, Stmt.str]; rfl⟩

/-- **C100**: so exactly the texts of statements are accepted, however they are meant. -/
theorem C100_language (hC : IfC i e cs rs) (s : Str) : (∃ t, parse s (ifRules i e cs rs) = .ok t) ↔
    Ascii s ∧ ∃ x : Stmt, x.Over cs rs ∧ x.str i e = s := by
  constructor
  · rintro ⟨t, h⟩
    obtain ⟨ha, x, ho, _, h1, _⟩ := (C100_nearest hC s t).1 h
    exact ⟨ha, x, ho, h1⟩
  · rintro ⟨ha, x, ho, rfl⟩
    obtain ⟨y, h1, h2, h3⟩ := nearest_reading (i := i) (e := e) ho
    exact ⟨_, (C100_nearest hC _ _).2 ⟨ha, y, h1, h2, h3, rfl⟩⟩

theorem node_inj : ∀ {x y : Stmt}, x.node i e = y.node i e → x = y
  | .base c, y, h => by cases y <;> simp [Stmt.node] at h; simp [h]
  | .ifThen x, y, h => by
    cases y with
    | ifThen y => simp [Stmt.node] at h; rw [node_inj h]
    | _ => simp [Stmt.node] at h
  | .ifElse x x', y, h => by
    cases y with
    | ifElse y y' => simp [Stmt.node] at h; rw [node_inj h.1, node_inj h.2]
    | _ => simp [Stmt.node] at h

/-- **C100**: a text has one such reading. -/
theorem C100_one_reading (hC : IfC i e cs rs) {x y : Stmt} (hx : x.Over cs rs) (hy : y.Over cs rs) (nx : x.Nearest) (ny : y.Nearest)
    (h : x.str i e = y.str i e) : x = y := by
  have h1 := stmt_peg hC x [] hx nx (fun _ r' h => by cases h)
  have h2 := stmt_peg hC y [] hy ny (fun _ r' h => by cases h)
  rw [h] at h1
  have h3 := peg_det h1 h2
  simp only [Outcome.ok.injEq, List.cons.injEq, and_true, true_and] at h3
  exact node_inj h3

/-- **C100**: the rules that write the two kinds of `if` one after the other return the same trees for the same texts. -/
theorem C100_twice_same (i e : Char) (cs : Str) (rs : List (Char × Char)) (s : Str) (t : Node) :
    parse s (ifRulesTwice i e cs rs) = .ok t ↔ parse s (ifRules i e cs rs) = .ok t := by
  refine (C50_same_trees (fun m => ?_) s t).1
  simp only [ifRulesTwice, ifRules, List.lookup_cons, List.lookup_nil]
  by_cases hm : m == c!"main"
  · rw [hm]
    dsimp only
    refine .trans (.same (.symm (.or_nest [] (.and [.simple (.literal [i]), .ruleName c!"main", .simple (.literal [e]), .ruleName c!"main"])
      [.and [.simple (.literal [i]), .ruleName c!"main"]] [.simple (.mtch cs rs)]))) ?_
    refine .or_at [] [.simple (.mtch cs rs)] ?_
    refine .trans (.same (.factor (.simple (.literal [i])) [.ruleName c!"main", .simple (.literal [e]), .ruleName c!"main"] [.ruleName c!"main"])) ?_
    refine .trans (.and_at [.simple (.literal [i])] [] (.same (.factor (.ruleName c!"main") [.simple (.literal [e]), .ruleName c!"main"] []))) ?_
    refine .trans (.same (.and_nest [.simple (.literal [i])] [.ruleName c!"main", .or [.and [.simple (.literal [e]), .ruleName c!"main"], .and []]] [])) ?_
    exact .and_at [.simple (.literal [i]), .ruleName c!"main"] [] (.symm (.optional _))
  · have hm : (m == c!"main") = false := by simpa using hm
    rw [hm]
    trivial

/-! ### What it costs -/

theorem stuck_cost (hC : IfC i e cs rs) {u : Str} (h : Stuck i cs rs u) : ∀ {c o}, Bill G (.ruleName c!"main") u c o → c ≤ 5 * u.length + 5 := by
  induction h with
  | nil =>
    intro c o h
    obtain ⟨c1, rfl, h0⟩ := bill_call if_main h
    obtain ⟨c2, c3, rfl, h2, h3⟩ := bill_or_fail (.and_fail char_misses_nil) h0
    obtain ⟨c4, rfl, h4⟩ := bill_and_fail char_misses_nil h2
    obtain ⟨c5, c6, rfl, h5, h6⟩ := bill_or_fail (.class_end _ _) h3
    have := bill_simple h4
    have := bill_simple h5
    cases h6
    simp
    omega
  | @other d r h1 h2 =>
    intro c o h
    obtain ⟨c1, rfl, h0⟩ := bill_call if_main h
    obtain ⟨c2, c3, rfl, h2', h3⟩ := bill_or_fail (.and_fail (char_misses h1)) h0
    obtain ⟨c4, rfl, h4⟩ := bill_and_fail (char_misses h1) h2'
    obtain ⟨c5, c6, rfl, h5, h6⟩ := bill_or_fail (.class_fail _ _ _ _ h2) h3
    have := bill_simple h4
    have := bill_simple h5
    cases h6
    simp
    omega
  | @more r hs ih =>
    intro c o h
    have hp := stuck_peg hC hs
    obtain ⟨c1, rfl, h0⟩ := bill_call if_main h
    obtain ⟨c2, c3, rfl, h2, h3⟩ := bill_or_fail (.and_tail_fail (.lit_ok [i] r) (.and_fail hp)) h0
    obtain ⟨c4, c5, rfl, h4, h5⟩ := bill_and (.lit_ok [i] r) h2
    obtain ⟨c6, rfl, h6⟩ := bill_and_fail hp h5
    obtain ⟨c7, c8, rfl, h7, h8⟩ := bill_or_fail (.class_fail _ _ _ _ hC.noIf) h3
    have := bill_simple h4
    have := bill_simple h7
    have := ih h6
    cases h8
    simp
    omega

theorem stuck_cost_low (hC : IfC i e cs rs) : ∀ (m : Nat) {c o}, Bill G (.ruleName c!"main") (List.replicate m i) c o → m ≤ c
  | 0, _, _, _ => Nat.zero_le _
  | m + 1, c, o, h => by
    have hs : ∀ m, Stuck i cs rs (List.replicate m i) := fun m => by
      induction m with
      | zero => exact .nil
      | succ m ih => exact .more ih
    have hp := stuck_peg hC (e := e) (hs m)
    rw [List.replicate_succ] at h
    obtain ⟨c1, rfl, h0⟩ := bill_call if_main h
    obtain ⟨c2, c3, rfl, h2, h3⟩ := bill_or_fail (.and_tail_fail (.lit_ok [i] _) (.and_fail hp)) h0
    obtain ⟨c4, c5, rfl, h4, h5⟩ := bill_and (.lit_ok [i] _) h2
    obtain ⟨c6, rfl, h6⟩ := bill_and_fail hp h5
    have := stuck_cost_low hC m h6
    omega

/-- an `if` without `else`: the statement, and the `else` that is tried -/
theorem then_cost (hC : IfC i e cs rs) {x : Stmt} {r : Str} (ho : x.Over cs rs) (hn : x.Nearest) (hl : Loose i e cs rs (.ifThen x) r) {c o}
    (h : Bill G (.ruleName c!"main") (i :: (x.str i e ++ r)) c o) : ∃ c1 o1, Bill G (.ruleName c!"main") (x.str i e ++ r) c1 o1 ∧
      ((c = c1 + 7 ∧ ∀ r', r ≠ e :: r') ∨ ∃ r' c2 o2, r = e :: r' ∧ Bill G (.ruleName c!"main") r' c2 o2 ∧ c = c1 + c2 + 7) := by
  have hx := stmt_peg hC x r ho hn (fun _ => hl id)
  have hi : Peg G (.ruleName c!"main") (i :: (x.str i e ++ r)) _ := stmt_peg hC (.ifThen x) r ho hn hl
  obtain ⟨c1, rfl, h0⟩ := bill_call if_main h
  have hand : ∃ ns, Peg G (.and [.simple (.literal [i]), .ruleName c!"main", .rep (.and [.simple (.literal [e]), .ruleName c!"main"]) 0 (some 1)])
      (i :: (x.str i e ++ r)) (.ok r ns) := by
    have h2 : Peg G (.rep (.and [.simple (.literal [e]), .ruleName c!"main"]) 0 (some 1)) r (.ok r []) := by
      refine .rep_stop (by simp) ?_
      by_cases hr : ∃ r', r = e :: r'
      · obtain ⟨r', rfl⟩ := hr
        exact .and_tail_fail (.lit_ok [e] r') (.and_fail (stuck_peg hC (hl id r' rfl)))
      · exact else_off fun r' h => hr ⟨r', h⟩
    exact ⟨_, .and_ok (.lit_ok [i] _) (.and_ok hx (.and_ok h2 (.and_nil _)))⟩
  obtain ⟨ns, hand⟩ := hand
  obtain ⟨c2, rfl, h2⟩ := bill_or hand h0
  obtain ⟨c3, c4, rfl, h3, h4⟩ := bill_and (.lit_ok [i] _) h2
  obtain ⟨c5, c6, rfl, h5, h6⟩ := bill_and hx h4
  have e3 := bill_simple h3
  refine ⟨c5, _, h5, ?_⟩
  by_cases hr : ∃ r', r = e :: r'
  · obtain ⟨r', rfl⟩ := hr
    have hp := stuck_peg hC (e := e) (hl id r' rfl)
    have hb : Peg G (.and [.simple (.literal [e]), .ruleName c!"main"]) (e :: r') .fail := .and_tail_fail (.lit_ok [e] r') (.and_fail hp)
    obtain ⟨c7, c8, rfl, h7, h8⟩ := bill_and (.rep_stop (mx := some 1) (by simp) hb) h6
    obtain ⟨c9, rfl, h9⟩ := bill_rep_fail (by simp) hb h7
    obtain ⟨c10, c11, rfl, h10, h11⟩ := bill_and (.lit_ok [e] r') h9
    obtain ⟨c12, rfl, h12⟩ := bill_and_fail hp h11
    have := bill_simple h10
    have := bill_nil h8
    exact .inr ⟨r', c12, _, rfl, h12, by omega⟩
  · have hr' : ∀ r', r ≠ e :: r' := fun r' h => hr ⟨r', h⟩
    have hb := else_off (i := i) (cs := cs) (rs := rs) hr'
    obtain ⟨c7, c8, rfl, h7, h8⟩ := bill_and (.rep_stop (mx := some 1) (by simp) hb) h6
    obtain ⟨c9, rfl, h9⟩ := bill_rep_fail (by simp) hb h7
    have hlit : Peg G (.simple (.literal [e])) r .fail := by
      cases r with
      | nil => exact char_misses_nil
      | cons d r => exact char_misses fun hd => hr' r (by rw [hd])
    obtain ⟨c10, rfl, h10⟩ := bill_and_fail hlit h9
    have := bill_simple h10
    have := bill_nil h8
    exact .inl ⟨by omega, hr'⟩

theorem stmt_cost (hC : IfC i e cs rs) : ∀ (x : Stmt) (r : Str), x.Over cs rs → x.Nearest → Loose i e cs rs x r → ∀ {c o},
    Bill G (.ruleName c!"main") (x.str i e ++ r) c o →
    c + 2 ≤ 7 * (x.str i e).length + (if x.Closed then 0 else (x.str i e).length * (5 * r.length))
  | .base d, r, ho, _, _, c, o, h => by
    have hd : d ≠ i := fun h => hC.noIf (h ▸ ho)
    obtain ⟨c1, rfl, h0⟩ := bill_call if_main h
    obtain ⟨c2, c3, rfl, h2, h3⟩ := bill_or_fail (.and_fail (char_misses hd)) h0
    obtain ⟨c4, rfl, h4⟩ := bill_and_fail (char_misses hd) h2
    obtain ⟨c5, rfl, h5⟩ := bill_or (.class_ok _ _ _ _ ho) h3
    have := bill_simple h4
    have := bill_simple h5
    simp [Stmt.str]
    omega
  | .ifThen x, r, ho, hn, hl, c, o, h => by
    obtain ⟨c1, o1, h1, h2⟩ := then_cost hC (x := x) ho hn hl h
    have ih := stmt_cost hC x r ho hn (fun _ => hl id) h1
    have e1 : (if x.Closed then 0 else (x.str i e).length * (5 * r.length)) ≤ (x.str i e).length * (5 * r.length) := by split <;> omega
    have e2 : ¬ Stmt.Closed (.ifThen x) := id
    rw [if_neg e2, Stmt.str, List.length_cons, Nat.add_mul, Nat.one_mul]
    rcases h2 with ⟨rfl, _⟩ | ⟨r', c2, o2, rfl, h2, rfl⟩
    · omega
    · have := stuck_cost hC (hl id r' rfl) h2
      simp only [List.length_cons] at ih e1 ⊢
      omega
  | .ifElse x y, r, ho, hn, hl, c, o, h => by
    have hx := stmt_peg hC x (e :: (y.str i e ++ r)) ho.1 hn.2.1 (fun h => absurd hn.1 h)
    have hy := stmt_peg hC y r ho.2 hn.2.2 hl
    have hbody : ∃ ns, Peg G (.and [.simple (.literal [e]), .ruleName c!"main"]) (e :: (y.str i e ++ r)) (.ok r ns) :=
      ⟨_, .and_ok (.lit_ok [e] _) (.and_ok hy (.and_nil _))⟩
    obtain ⟨ns, hbody⟩ := hbody
    have hrep := Peg.rep_more (mn := 0) (mx := some 1) (by simp) hbody (.rep_full _ _ _)
    have hand := Peg.and_ok (.lit_ok [i] _) (.and_ok hx (.and_ok hrep (.and_nil _)))
    have hs : (Stmt.ifElse x y).str i e ++ r = i :: (x.str i e ++ (e :: (y.str i e ++ r))) := by simp [Stmt.str]
    rw [hs] at h
    obtain ⟨c1, rfl, h0⟩ := bill_call if_main h
    obtain ⟨c2, rfl, h2⟩ := bill_or hand h0
    obtain ⟨c3, c4, rfl, h3, h4⟩ := bill_and (.lit_ok [i] _) h2
    obtain ⟨c5, c6, rfl, h5, h6⟩ := bill_and hx h4
    obtain ⟨c7, c8, rfl, h7, h8⟩ := bill_and hrep h6
    obtain ⟨c9, c10, rfl, h9, h10⟩ := bill_rep (by simp) hbody h7
    obtain ⟨c11, c12, rfl, h11, h12⟩ := bill_and (.lit_ok [e] _) h9
    obtain ⟨c13, c14, rfl, h13, h14⟩ := bill_and hy h12
    have := bill_simple h3
    have := bill_simple h11
    have := bill_nil h8
    have := bill_nil h14
    have e10 : c10 = 1 := by
      simp at h10
      cases h10 with
      | rep_full => rfl
      | rep_yes hm => simp at hm
      | rep_no hm => simp at hm
    have ix := stmt_cost hC x _ ho.1 hn.2.1 (fun h => absurd hn.1 h) h5
    rw [if_pos hn.1] at ix
    have iy := stmt_cost hC y r ho.2 hn.2.2 hl h13
    have e1 : (Stmt.ifElse x y).Closed ↔ y.Closed := Iff.rfl
    have e2 : ((Stmt.ifElse x y).str i e).length = (x.str i e).length + (y.str i e).length + 2 := by simp [Stmt.str]; omega
    rw [e2]
    by_cases hc : y.Closed
    · rw [if_pos hc] at iy
      rw [if_pos (e1.2 hc)]
      omega
    · rw [if_neg hc] at iy
      rw [if_neg (fun h => hc (e1.1 h)), Nat.add_mul, Nat.add_mul]
      omega

/-- **C100**: a text of statements takes at most seven calls for each character. -/
theorem C100_linear (hC : IfC i e cs rs) {s : Str} {t : Node} (h : parse s (ifRules i e cs rs) = .ok t) :
    ∃ m, Uses s (ifRules i e cs rs) m ∧ m.calls ≤ 7 * s.length := by
  obtain ⟨ha, x, ho, hn, rfl, rfl⟩ := (C100_nearest hC s t).1 h
  obtain ⟨m, hm⟩ := (C53_uses _ _).1.1 (by rw [h]; simp)
  obtain ⟨o, hb⟩ := billed ((C53_effort ha _ _).1 hm)
  refine ⟨m, hm, ?_⟩
  have := stmt_cost hC x [] ho hn (fun _ r' h => by cases h) (c := m.calls + 1) (o := o) (by rw [List.append_nil]; exact hb)
  simp at this
  omega

/-- **C100**: every text takes at most quadratic work. -/
theorem C100_quadratic (hC : IfC i e cs rs) {s : Str} (ha : Ascii s) :
    ∃ m, Uses s (ifRules i e cs rs) m ∧ m.calls ≤ 12 * (s.length + 1) * (s.length + 1) := by
  have hp : ∃ o, Peg G (.ruleName c!"main") s o := by
    rcases stmt_or_stuck hC _ s (Nat.le_refl _) with ⟨x, r, ho, hn, rfl, hl⟩ | hs
    · exact ⟨_, stmt_peg hC x r ho hn hl⟩
    · exact ⟨_, stuck_peg hC hs⟩
  obtain ⟨o, hp⟩ := hp
  obtain ⟨m, hm⟩ := (C53_uses s (ifRules i e cs rs)).1.1 (by
    rw [Ne, parse_diverges_iff ha]
    exact fun h => h o hp)
  obtain ⟨o', hb⟩ := billed ((C53_effort ha _ _).1 hm)
  refine ⟨m, hm, ?_⟩
  have e0 : 12 * (s.length + 1) * (s.length + 1) = 12 * (s.length * s.length) + 24 * s.length + 12 := by
    have : (s.length + 1) * (s.length + 1) = s.length * s.length + 2 * s.length + 1 := by
      rw [Nat.add_mul, Nat.mul_add]
      omega
    rw [Nat.mul_assoc, this]
    omega
  rw [e0]
  rcases stmt_or_stuck hC _ s (Nat.le_refl _) with ⟨x, r, ho, hn, rfl, hl⟩ | hs
  · have h1 := stmt_cost hC x r ho hn hl hb
    have h2 : (if x.Closed then 0 else (x.str i e).length * (5 * r.length)) ≤ (x.str i e).length * (5 * r.length) := by split <;> omega
    have h3 : (x.str i e).length * (5 * r.length) ≤ 5 * ((x.str i e ++ r).length * (x.str i e ++ r).length) := by
      rw [Nat.mul_left_comm]
      exact Nat.mul_le_mul_left 5 (Nat.mul_le_mul (by simp) (by simp))
    simp only [List.length_append] at h3 ⊢
    omega
  · have := stuck_cost hC hs hb
    omega

/-- so many `if`s -/
def ifs (x : Stmt) : Nat → Stmt
  | 0 => x
  | n + 1 => .ifThen (ifs x n)

theorem ifs_str (c : Char) (n : Nat) : (ifs (.base c) n).str i e = List.replicate n i ++ [c] := by
  induction n with
  | zero => rfl
  | succ n ih => rw [ifs, Stmt.str, ih]; rfl

theorem ifs_ok {c : Char} (hc : InClass cs rs c) (n : Nat) : (ifs (.base c) n).Over cs rs ∧ (ifs (.base c) n).Nearest := by
  induction n with
  | zero => exact ⟨hc, trivial⟩
  | succ n ih => exact ih

theorem ifs_slow (hC : IfC i e cs rs) {d : Char} (hd : InClass cs rs d) (m : Nat) : ∀ (n : Nat) {c o},
    Bill G (.ruleName c!"main") ((ifs (.base d) n).str i e ++ e :: List.replicate m i) c o → n * m ≤ c
  | 0, _, _, _ => by simp
  | n + 1, c, o, h => by
    have hs : ∀ m, Stuck i cs rs (List.replicate m i) := fun m => by
      induction m with
      | zero => exact .nil
      | succ m ih => exact .more ih
    obtain ⟨ho, hn⟩ := ifs_ok hd n
    obtain ⟨c1, o1, h1, h2⟩ := then_cost hC ho hn (fun _ r' hr => by cases hr; exact hs m) h
    have ih := ifs_slow hC hd m n h1
    rcases h2 with ⟨_, h2⟩ | ⟨r', c2, o2, hr, h2, rfl⟩
    · exact absurd rfl (h2 _)
    · cases hr
      have := stuck_cost_low hC m h2
      rw [Nat.add_mul]
      omega

/-- **C100**: and some do: each of `n` `if`s tries again the `else` that has no statement. -/
theorem C100_quadratic_attained (hC : IfC i e cs rs) {d : Char} (hd : InClass cs rs d) (hi : i.toNat < 128) (he : e.toNat < 128)
    (hda : d.toNat < 128) (n : Nat) : (∃ x, parse (List.replicate n i ++ d :: e :: List.replicate n i) (ifRules i e cs rs) = .err x) ∧
    ∃ m, Uses (List.replicate n i ++ d :: e :: List.replicate n i) (ifRules i e cs rs) m ∧ n * n ≤ m.calls + 1 := by
  have hs : ∀ m, Stuck i cs rs (List.replicate m i) := fun m => by
    induction m with
    | zero => exact .nil
    | succ m ih => exact .more ih
  have ha : Ascii (List.replicate n i ++ d :: e :: List.replicate n i) := by
    intro c hc
    simp only [List.mem_append, List.mem_cons, List.mem_replicate] at hc
    rcases hc with ⟨_, rfl⟩ | rfl | rfl | ⟨_, rfl⟩ <;> assumption
  have hstr : List.replicate n i ++ d :: e :: List.replicate n i = (ifs (.base d) n).str i e ++ e :: List.replicate n i := by
    rw [ifs_str]; simp
  obtain ⟨ho, hn⟩ := ifs_ok hd n
  have hp := stmt_peg hC _ (e :: List.replicate n i) ho hn (fun _ r' hr => by cases hr; exact hs n)
  rw [← hstr] at hp
  obtain ⟨m, hm, _⟩ := C100_quadratic hC ha
  refine ⟨?_, m, hm, ?_⟩
  · cases h : parse (List.replicate n i ++ d :: e :: List.replicate n i) (ifRules i e cs rs) with
    | err x => exact ⟨x, rfl⟩
    | ok t => cases peg_det hp ((parse_iff _ _ _).1 h).2
    | panic => exact absurd h (C16_no_panic_on_ascii _ ha)
    | diverge => exact absurd hp ((parse_diverges_iff ha).1 h _)
  · obtain ⟨o, hb⟩ := billed ((C53_effort ha _ _).1 hm)
    rw [hstr] at hb
    exact ifs_slow hC hd n n hb

theorem twice_denotes : denotes (ifRulesTwice i e cs rs) = grammar (ifRulesTwice i e cs rs) :=
  denotes_of_boundsOK (by
    intro ne h
    rw [List.mem_singleton.1 h]
    refine .or fun x hx => ?_
    simp only [List.mem_cons, List.not_mem_nil, or_false] at hx
    rcases hx with rfl | rfl | rfl
    · refine .and fun x hx => ?_
      simp only [List.mem_cons, List.not_mem_nil, or_false] at hx
      rcases hx with rfl | rfl | rfl | rfl
      · exact .simple _
      · exact .ruleName _
      · exact .simple _
      · exact .ruleName _
    · refine .and fun x hx => ?_
      simp only [List.mem_cons, List.not_mem_nil, or_false] at hx
      rcases hx with rfl | rfl
      · exact .simple _
      · exact .ruleName _
    · exact .simple _)

theorem twice_main : denotes (ifRulesTwice i e cs rs) c!"main" = some (.or [.and [.simple (.literal [i]), .ruleName c!"main",
    .simple (.literal [e]), .ruleName c!"main"], .and [.simple (.literal [i]), .ruleName c!"main"], .simple (.mtch cs rs)]) := by
  rw [twice_denotes]
  rfl

theorem twice_peg (hC : IfC i e cs rs) {d : Char} (hd : InClass cs rs d) : ∀ n : Nat,
    ∃ ns, Peg (denotes (ifRulesTwice i e cs rs)) (.ruleName c!"main") (List.replicate n i ++ [d]) (.ok [] ns)
  | 0 => by
    have hdi : d ≠ i := fun h => hC.noIf (h ▸ hd)
    exact ⟨_, .call_ok twice_main (.or_next (.and_fail (char_misses hdi)) (.or_next (.and_fail (char_misses hdi)) (.or_ok (.class_ok _ _ _ _ hd))))⟩
  | n + 1 => by
    obtain ⟨ns, h⟩ := twice_peg hC hd n
    exact ⟨_, .call_ok twice_main (.or_next (.and_tail_fail (.lit_ok [i] _) (.and_tail_fail h (.and_fail char_misses_nil)))
      (.or_ok (.and_ok (.lit_ok [i] _) (.and_ok h (.and_nil _)))))⟩

theorem twice_slow (hC : IfC i e cs rs) {d : Char} (hd : InClass cs rs d) : ∀ (n : Nat) {c o},
    Bill (denotes (ifRulesTwice i e cs rs)) (.ruleName c!"main") (List.replicate n i ++ [d]) c o → 2 ^ n < c
  | 0, c, o, h => by
    have hdi : d ≠ i := fun h => hC.noIf (h ▸ hd)
    obtain ⟨c1, rfl, h0⟩ := bill_call twice_main h
    obtain ⟨c2, c3, rfl, h2, h3⟩ := bill_or_fail (.and_fail (char_misses hdi)) h0
    obtain ⟨c4, rfl, h4⟩ := bill_and_fail (char_misses hdi) h2
    have := bill_simple h4
    simp
    omega
  | n + 1, c, o, h => by
    obtain ⟨ns, hp⟩ := twice_peg hC hd n
    obtain ⟨c1, rfl, h0⟩ := bill_call twice_main h
    have ha : Peg (denotes (ifRulesTwice i e cs rs)) (.and [.simple (.literal [i]), .ruleName c!"main", .simple (.literal [e]), .ruleName c!"main"])
      (i :: (List.replicate n i ++ [d])) .fail := .and_tail_fail (.lit_ok [i] _) (.and_tail_fail hp (.and_fail char_misses_nil))
    obtain ⟨c2, c3, rfl, h2, h3⟩ := bill_or_fail ha h0
    obtain ⟨c4, c5, rfl, h4, h5⟩ := bill_and (.lit_ok [i] _) h2
    obtain ⟨c6, c7, rfl, h6, h7⟩ := bill_and hp h5
    have hb := Peg.and_ok (.lit_ok [i] _) (.and_ok hp (.and_nil _))
    obtain ⟨c8, rfl, h8⟩ := bill_or hb h3
    obtain ⟨c9, c10, rfl, h9, h10⟩ := bill_and (.lit_ok [i] _) h8
    obtain ⟨c11, c12, rfl, h11, h12⟩ := bill_and hp h10
    have := twice_slow hC hd n h6
    have := twice_slow hC hd n h11
    rw [Nat.pow_succ]
    omega

/-- **C100**: these rules read each statement twice: `n` `if`s without `else` take at least `2 ^ n` calls. -/
theorem C100_twice_slow (hC : IfC i e cs rs) {d : Char} (hd : InClass cs rs d) (hi : i.toNat < 128) (hda : d.toNat < 128) (n : Nat) :
    (∃ t, parse (List.replicate n i ++ [d]) (ifRulesTwice i e cs rs) = .ok t) ∧
    ∃ m, Uses (List.replicate n i ++ [d]) (ifRulesTwice i e cs rs) m ∧ 2 ^ n ≤ m.calls := by
  have ha : Ascii (List.replicate n i ++ [d]) := by
    intro c hc
    simp only [List.mem_append, List.mem_singleton, List.mem_replicate] at hc
    rcases hc with ⟨_, rfl⟩ | rfl <;> assumption
  obtain ⟨ho, hn⟩ := ifs_ok hd n
  have h1 := (C100_twice_same i e cs rs _ _).2 ((C100_nearest hC _ _).2 ⟨ha, _, ho, hn, ifs_str d n, rfl⟩)
  obtain ⟨m, hm⟩ := (C53_uses _ _).1.1 (show parse (List.replicate n i ++ [d]) (ifRulesTwice i e cs rs) ≠ .diverge by rw [h1]; simp)
  obtain ⟨o, hb⟩ := billed ((C53_effort ha _ _).1 hm)
  have := twice_slow hC hd n hb
  exact ⟨⟨_, h1⟩, m, hm, by omega⟩

end

/-! ### Examples -/

def ifText : Str := c!"main = 'i' main ('e' main)? / [x-z]\n"

theorem ifText_rules : rulesFromPeg ifText = .ok (ifRules 'i' 'e' [] [('x', 'z')]) :=
  rulesFromPeg_of 200 (by decide +kernel)

theorem ifText_chars : IfC 'i' 'e' [] [('x', 'z')] := ⟨by decide, by unfold InClass; decide, by unfold InClass; decide⟩

/-- the `else` of `iixey` is that of the second `if` -/
example : parse c!"iixey" (ifRules 'i' 'e' [] [('x', 'z')]) = .ok (.rule c!"main" [.val c!"i", .rule c!"main" [.val c!"i",
    .rule c!"main" [.val c!"x"], .val c!"e", .rule c!"main" [.val c!"y"]]]) :=
  (C100_nearest ifText_chars _ _).2 ⟨by decide, .ifThen (.ifElse (.base 'x') (.base 'y')), by simp [Stmt.Over, InClass], by simp [Stmt.Nearest, Stmt.Closed], rfl, rfl⟩

/-- and the rules written twice agree -/
example : ∃ t, parse c!"iixey" (ifRulesTwice 'i' 'e' [] [('x', 'z')]) = .ok t :=
  ⟨_, (C100_twice_same _ _ _ _ _ _).2 ((C100_nearest ifText_chars _ _).2
    ⟨by decide, .ifThen (.ifElse (.base 'x') (.base 'y')), by simp [Stmt.Over, InClass], by simp [Stmt.Nearest, Stmt.Closed], rfl, rfl⟩)⟩

/-- an `else` without `if` is no statement -/
example : ¬ ∃ t, parse c!"xey" (ifRules 'i' 'e' [] [('x', 'z')]) = .ok t := by
  rw [C100_language ifText_chars]
  rintro ⟨_, x, ho, hx⟩
  cases x <;> simp [Stmt.str] at hx

/-- the statement meant otherwise has the same text -/
example : (Stmt.ifElse (.ifThen (.base 'x')) (.base 'y')).str 'i' 'e' = c!"iixey" ∧ ¬ (Stmt.ifElse (.ifThen (.base 'x')) (.base 'y')).Nearest :=
  ⟨rfl, by simp [Stmt.Nearest, Stmt.Closed]⟩

example : Stmt.ifThen (.base 'x') = .ifThen (.base 'x') :=
  C100_one_reading ifText_chars (i := 'i') (e := 'e') (by simp [Stmt.Over, InClass]) (by simp [Stmt.Over, InClass]) trivial trivial rfl

example : ∃ m, Uses c!"iixey" (ifRules 'i' 'e' [] [('x', 'z')]) m ∧ m.calls ≤ 35 :=
  C100_linear ifText_chars ((C100_nearest ifText_chars _ _).2
    ⟨by decide, .ifThen (.ifElse (.base 'x') (.base 'y')), by simp [Stmt.Over, InClass], by simp [Stmt.Nearest, Stmt.Closed], rfl, rfl⟩)

example : ∃ m, Uses c!"iixe" (ifRules 'i' 'e' [] [('x', 'z')]) m ∧ m.calls ≤ 300 := C100_quadratic ifText_chars (by decide)

example : ∃ m, Uses (List.replicate 1000 'i' ++ 'x' :: 'e' :: List.replicate 1000 'i') (ifRules 'i' 'e' [] [('x', 'z')]) m ∧ 1000000 ≤ m.calls + 1 :=
  (C100_quadratic_attained ifText_chars (by unfold InClass; decide) (by decide) (by decide) (by decide) 1000).2

example : ∃ m, Uses (List.replicate 64 'i' ++ ['x']) (ifRulesTwice 'i' 'e' [] [('x', 'z')]) m ∧ 2 ^ 64 ≤ m.calls :=
  (C100_twice_slow ifText_chars (by unfold InClass; decide) (by decide) (by decide) 64).2

end DP
