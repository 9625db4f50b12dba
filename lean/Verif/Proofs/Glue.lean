/-
Expressions with the same outcomes up to `compact`.
-/
import Verif.Spec.Glue
import Verif.Proofs.Alike
import Verif.Props.Ast

namespace DP
open Spec

theorem compactNodes_append (acc : List Node) : ∀ xs ys, Node.compactNodes acc (xs ++ ys) =
    Node.compactNodes (Node.compactNodes acc xs) ys
  | xs, ys => by
    induction xs generalizing acc with
    | nil => simp [Node.compactNodes]
    | cons x xs ih => rw [List.cons_append, Node.compactNodes, Node.compactNodes, ih]

theorem compactNodes_idem (ts : List Node) : Node.compactNodes [] (Node.compactNodes [] ts) = Node.compactNodes [] ts :=
  compact_of_noAdjacent (joined_noAdjacent (compactNodes_joined ts))

theorem concat_val (acc : List Node) (u v : Str) :
    Node.concatNodes (Node.concatNodes acc (.val u)) (.val v) = Node.concatNodes acc (.val (u ++ v)) := by
  simp only [Node.concatNodes]
  rcases List.eq_nil_or_concat acc with rfl | ⟨init, x, rfl⟩
  · simp
  · cases x <;> simp

theorem compact_concat (acc b : List Node) (n : Node) :
    Node.compactNodes acc (Node.concatNodes b n) = Node.concatNodes (Node.compactNodes acc b) n := by
  have snoc : ∀ b m, Node.compactNodes acc (b ++ [m]) = Node.concatNodes (Node.compactNodes acc b) m := by
    intro b m; rw [compactNodes_append]; simp [Node.compactNodes]
  cases n with
  | eof => rw [show Node.concatNodes b .eof = b ++ [.eof] by rw [Node.concatNodes], snoc]
  | rule m ns =>
    rw [show Node.concatNodes b (.rule m ns) = b ++ [.rule m (Node.compactNodes [] ns)] by rw [Node.concatNodes], snoc,
      Node.concatNodes, Node.concatNodes, compactNodes_idem]
  | val v =>
    rcases List.eq_nil_or_concat b with rfl | ⟨init, x, rfl⟩
    · rw [show Node.concatNodes [] (.val v) = [] ++ [.val v] by simp [Node.concatNodes], snoc]
    · rw [List.concat_eq_append]
      cases x with
      | val u =>
        rw [show Node.concatNodes (init ++ [.val u]) (.val v) = init ++ [.val (u ++ v)] by simp [Node.concatNodes], snoc, snoc,
          concat_val]
      | rule m ns =>
        rw [show Node.concatNodes (init ++ [.rule m ns]) (.val v) = (init ++ [.rule m ns]) ++ [.val v] by
          simp [Node.concatNodes], snoc]
      | eof =>
        rw [show Node.concatNodes (init ++ [.eof]) (.val v) = (init ++ [.eof]) ++ [.val v] by simp [Node.concatNodes], snoc]

theorem compact_compact (acc : List Node) : ∀ b ys, Node.compactNodes acc (Node.compactNodes b ys) =
    Node.compactNodes (Node.compactNodes acc b) ys
  | b, [] => by simp [Node.compactNodes]
  | b, y :: ys => by
    rw [Node.compactNodes, Node.compactNodes, compact_compact acc _ ys, compact_concat]

/-- the same siblings once joined -/
def Joins (ns ns' : List Node) : Prop := Node.compactNodes [] ns = Node.compactNodes [] ns'

theorem joins_append {a a' b b'} (h : Joins a a') (h' : Joins b b') : Joins (a ++ b) (a' ++ b') := by
  unfold Joins at *
  rw [compactNodes_append, compactNodes_append, h]
  have := compact_compact (Node.compactNodes [] a') [] b
  have h2 := compact_compact (Node.compactNodes [] a') [] b'
  simp only [Node.compactNodes] at this h2
  rw [← this, ← h2, h']

theorem joins_rule {n ns ns'} (h : Joins ns ns') : Joins [.rule n ns] [.rule n ns'] := by
  unfold Joins at *
  simp [Node.compactNodes, Node.concatNodes, h]

/-- the same outcome up to joining -/
inductive Near : Outcome → Outcome → Prop
  | ok {r ns ns'} : Joins ns ns' → Near (.ok r ns) (.ok r ns')
  | fail : Near .fail .fail
  | crit (w q) : Near (.crit w q) (.crit w q)

theorem near_refl (o : Outcome) : Near o o := by
  cases o with
  | ok => exact .ok rfl
  | fail => exact .fail
  | crit => exact .crit _ _

theorem near_trans {a b c} (h : Near a b) (h' : Near b c) : Near a c := by
  cases h with
  | ok h => cases h' with | ok h' => exact .ok (h.trans h')
  | fail => exact h'
  | crit => exact h'

/-- on ASCII texts, every outcome of `e` is near one of `e'` -/
def NearBy (G : Str → Option Expr) (e e' : Expr) : Prop := ∀ s, Ascii s → ∀ o, Peg G e s o → ∃ o', Peg G e' s o' ∧ Near o o'

section
variable {G : Str → Option Expr}

theorem NearBy.fails {e e'} (h : NearBy G e e') {s} (ha : Ascii s) (hp : Peg G e s .fail) : Peg G e' s .fail := by
  obtain ⟨_, h1, h2⟩ := h s ha _ hp; cases h2; exact h1

theorem NearBy.crits {e e'} (h : NearBy G e e') {s w q} (ha : Ascii s) (hp : Peg G e s (.crit w q)) : Peg G e' s (.crit w q) := by
  obtain ⟨_, h1, h2⟩ := h s ha _ hp; cases h2; exact h1

theorem NearBy.oks {e e'} (h : NearBy G e e') {s r ns} (ha : Ascii s) (hp : Peg G e s (.ok r ns)) :
    ∃ ns', Peg G e' s (.ok r ns') ∧ Joins ns ns' := by
  obtain ⟨_, h1, h2⟩ := h s ha _ hp; cases h2 with | ok h2 => exact ⟨_, h1, h2⟩

theorem nearBy_refl (e) : NearBy G e e := fun _ _ o h => ⟨o, h, near_refl o⟩

theorem nearBy_seq {e e' es es'} (h : NearBy G e e') (h' : NearBy G (.and es) (.and es')) :
    NearBy G (.and (e :: es)) (.and (e' :: es')) := by
  intro s ha o hp
  cases hp with
  | and_ok h1 h2 =>
    obtain ⟨_, g1, j1⟩ := h.oks ha h1
    obtain ⟨_, g2, j2⟩ := h'.oks (ascii_suffix ha (peg_suffix h1 rfl)) h2
    exact ⟨_, .and_ok g1 g2, .ok (joins_append j1 j2)⟩
  | and_fail h1 => exact ⟨_, .and_fail (h.fails ha h1), .fail⟩
  | and_crit h1 => exact ⟨_, .and_crit (h.crits ha h1), .crit _ _⟩
  | and_tail_fail h1 h2 =>
    obtain ⟨_, g1, _⟩ := h.oks ha h1
    exact ⟨_, .and_tail_fail g1 (h'.fails (ascii_suffix ha (peg_suffix h1 rfl)) h2), .fail⟩
  | and_tail_crit h1 h2 =>
    obtain ⟨_, g1, _⟩ := h.oks ha h1
    exact ⟨_, .and_tail_crit g1 (h'.crits (ascii_suffix ha (peg_suffix h1 rfl)) h2), .crit _ _⟩

theorem nearBy_and {e e'} (h : NearBy G e e') (ys) : ∀ xs, NearBy G (.and (xs ++ e :: ys)) (.and (xs ++ e' :: ys))
  | [] => nearBy_seq h (nearBy_refl _)
  | x :: xs => nearBy_seq (nearBy_refl x) (nearBy_and h ys xs)

theorem nearBy_alt {e e' es es'} (h : NearBy G e e') (h' : NearBy G (.or es) (.or es')) :
    NearBy G (.or (e :: es)) (.or (e' :: es')) := by
  intro s ha o hp
  cases hp with
  | or_ok h1 =>
    obtain ⟨_, g1, j1⟩ := h.oks ha h1
    exact ⟨_, .or_ok g1, .ok j1⟩
  | or_crit h1 => exact ⟨_, .or_crit (h.crits ha h1), .crit _ _⟩
  | or_next h1 h2 =>
    obtain ⟨o', g2, n2⟩ := h' s ha _ h2
    exact ⟨o', .or_next (h.fails ha h1) g2, n2⟩

theorem nearBy_or {e e'} (h : NearBy G e e') (ys) : ∀ xs, NearBy G (.or (xs ++ e :: ys)) (.or (xs ++ e' :: ys))
  | [] => nearBy_alt h (nearBy_refl _)
  | x :: xs => nearBy_alt (nearBy_refl x) (nearBy_or h ys xs)

theorem nearBy_not {e e'} (h : NearBy G e e') : NearBy G (.not e) (.not e') := by
  intro s ha o hp
  cases hp with
  | not_ok h1 => obtain ⟨_, g1, _⟩ := h.oks ha h1; exact ⟨_, .not_ok g1, .fail⟩
  | not_fail h1 => exact ⟨_, .not_fail (h.fails ha h1), .ok rfl⟩
  | not_crit h1 => exact ⟨_, .not_crit (h.crits ha h1), .ok rfl⟩

theorem nearBy_rep {e e'} (h : NearBy G e e') (mn mx) : NearBy G (.rep e mn mx) (.rep e' mn mx) := by
  intro s ha o hp
  generalize hE : Expr.rep e mn mx = E at hp
  induction hp generalizing mn mx with
  | rep_full => cases hE; exact ⟨_, .rep_full _ _ _, .ok rfl⟩
  | rep_more hm h1 _ _ ih =>
    cases hE
    obtain ⟨_, g1, j1⟩ := h.oks ha h1
    obtain ⟨_, g2, j2⟩ := ih _ _ (ascii_suffix ha (peg_suffix h1 rfl)) rfl
    cases j2 with
    | ok j2 => exact ⟨_, .rep_more hm g1 g2, .ok (joins_append j1 j2)⟩
  | rep_stop hm h1 => cases hE; exact ⟨_, .rep_stop hm (h.fails ha h1), .ok rfl⟩
  | rep_few hm h0 h1 => cases hE; exact ⟨_, .rep_few hm h0 (h.fails ha h1), .fail⟩
  | rep_crit hm h1 => cases hE; exact ⟨_, .rep_crit hm (h.crits ha h1), .crit _ _⟩
  | rep_more_fail hm h1 _ _ ih =>
    cases hE
    obtain ⟨_, g1, _⟩ := h.oks ha h1
    obtain ⟨_, g2, j2⟩ := ih _ _ (ascii_suffix ha (peg_suffix h1 rfl)) rfl
    cases j2
    exact ⟨_, .rep_more_fail hm g1 g2, .fail⟩
  | rep_more_crit hm h1 _ _ ih =>
    cases hE
    obtain ⟨_, g1, _⟩ := h.oks ha h1
    obtain ⟨_, g2, j2⟩ := ih _ _ (ascii_suffix ha (peg_suffix h1 rfl)) rfl
    cases j2
    exact ⟨_, .rep_more_crit hm g1 g2, .crit _ _⟩
  | _ => cases hE

theorem joins_vals (l l' : Str) : Joins [.val (l ++ l')] [.val l, .val l'] := by
  simp [Joins, Node.compactNodes, Node.concatNodes]

theorem literal_both (l l' s : Str) : ∃ o o', Peg G (.simple (.literal (l ++ l'))) s o ∧
    Peg G (.and [.simple (.literal l), .simple (.literal l')]) s o' ∧ Near o o' ∧ Near o' o := by
  by_cases h : l <+: s
  · obtain ⟨r, rfl⟩ := h
    by_cases h' : l' <+: r
    · obtain ⟨r, rfl⟩ := h'
      refine ⟨_, _, ?_, .and_ok (.lit_ok l _) (.and_ok (.lit_ok l' r) (.and_nil _)), .ok (joins_vals l l'), .ok (joins_vals l l').symm⟩
      rw [← List.append_assoc]
      exact .lit_ok _ _
    · refine ⟨_, _, .lit_fail _ _ ?_, .and_tail_fail (.lit_ok l r) (.and_fail (.lit_fail _ _ h')), .fail, .fail⟩
      rwa [List.prefix_append_right_inj]
  · exact ⟨_, _, .lit_fail _ _ fun hp => h ((List.prefix_append l l').trans hp), .and_fail (.lit_fail _ _ h), .fail, .fail⟩

end

theorem glue_near {R : SetOfRules} {e e'} (h : Glue e e') :
    NearBy (denotes R) (effective e) (effective e') ∧ NearBy (denotes R) (effective e') (effective e) := by
  induction h with
  | alike h =>
    exact ⟨fun s ha o hp => ⟨o, (alike_within h).1 s ha o hp, near_refl o⟩,
      fun s ha o hp => ⟨o, (alike_within h).2 s ha o hp, near_refl o⟩⟩
  | symm _ ih => exact ⟨ih.2, ih.1⟩
  | trans _ _ ih1 ih2 =>
    refine ⟨fun s ha o hp => ?_, fun s ha o hp => ?_⟩
    · obtain ⟨o1, p1, n1⟩ := ih1.1 s ha o hp
      obtain ⟨o2, p2, n2⟩ := ih2.1 s ha o1 p1
      exact ⟨o2, p2, near_trans n1 n2⟩
    · obtain ⟨o1, p1, n1⟩ := ih2.2 s ha o hp
      obtain ⟨o2, p2, n2⟩ := ih1.2 s ha o1 p1
      exact ⟨o2, p2, near_trans n1 n2⟩
  | and_at xs ys _ ih =>
    simp only [effective, effectives_append, effectives]
    exact ⟨nearBy_and ih.1 _ _, nearBy_and ih.2 _ _⟩
  | or_at xs ys _ ih =>
    simp only [effective, effectives_append, effectives]
    exact ⟨nearBy_or ih.1 _ _, nearBy_or ih.2 _ _⟩
  | not _ ih => simp only [effective]; exact ⟨nearBy_not ih.1, nearBy_not ih.2⟩
  | rep mn mx _ ih =>
    rcases mx with _ | _ | m <;> simp only [effective] <;> exact ⟨nearBy_rep ih.1 _ _, nearBy_rep ih.2 _ _⟩
  | literal l l' =>
    simp only [effective, effectives]
    refine ⟨fun s _ o hp => ?_, fun s _ o hp => ?_⟩
    · obtain ⟨o1, o2, h1, h2, h3, _⟩ := literal_both (G := denotes R) l l' s
      rw [peg_det hp h1]
      exact ⟨_, h2, h3⟩
    · obtain ⟨o1, o2, h1, h2, _, h3⟩ := literal_both (G := denotes R) l l' s
      rw [peg_det hp h2]
      exact ⟨_, h1, h3⟩

/-! ### another set of rules -/

theorem near_transfer {G G' : Str → Option Expr} (h0 : ∀ n, G' n = none → G n = none)
    (h1 : ∀ n e', G' n = some e' → ∃ e, G n = some e ∧ NearBy G e' e) {x s o} (h : Peg G' x s o) :
    Ascii s → ∃ o', Peg G x s o' ∧ Near o o' := by
  induction h with
  | lit_ok => exact fun _ => ⟨_, .lit_ok _ _, .ok rfl⟩
  | lit_fail _ _ h => exact fun _ => ⟨_, .lit_fail _ _ h, .fail⟩
  | class_ok _ _ _ _ h => exact fun _ => ⟨_, .class_ok _ _ _ _ h, .ok rfl⟩
  | class_fail _ _ _ _ h => exact fun _ => ⟨_, .class_fail _ _ _ _ h, .fail⟩
  | class_end => exact fun _ => ⟨_, .class_end _ _, .fail⟩
  | dot_ok => exact fun _ => ⟨_, .dot_ok _ _, .ok rfl⟩
  | dot_end => exact fun _ => ⟨_, .dot_end, .fail⟩
  | eof_ok => exact fun _ => ⟨_, .eof_ok, .ok rfl⟩
  | eof_fail => exact fun _ => ⟨_, .eof_fail _ _, .fail⟩
  | error => exact fun _ => ⟨_, .error _ _, .crit _ _⟩
  | and_nil => exact fun _ => ⟨_, .and_nil _, .ok rfl⟩
  | and_ok p _ ih1 ih2 =>
    intro ha
    obtain ⟨_, g1, n1⟩ := ih1 ha
    obtain ⟨_, g2, n2⟩ := ih2 (ascii_suffix ha (peg_suffix p rfl))
    cases n1 with | ok n1 => cases n2 with | ok n2 => exact ⟨_, .and_ok g1 g2, .ok (joins_append n1 n2)⟩
  | and_fail _ ih => intro ha; obtain ⟨_, g, n⟩ := ih ha; cases n; exact ⟨_, .and_fail g, .fail⟩
  | and_crit _ ih => intro ha; obtain ⟨_, g, n⟩ := ih ha; cases n; exact ⟨_, .and_crit g, .crit _ _⟩
  | and_tail_fail p _ ih1 ih2 =>
    intro ha
    obtain ⟨_, g1, n1⟩ := ih1 ha
    obtain ⟨_, g2, n2⟩ := ih2 (ascii_suffix ha (peg_suffix p rfl))
    cases n1; cases n2; exact ⟨_, .and_tail_fail g1 g2, .fail⟩
  | and_tail_crit p _ ih1 ih2 =>
    intro ha
    obtain ⟨_, g1, n1⟩ := ih1 ha
    obtain ⟨_, g2, n2⟩ := ih2 (ascii_suffix ha (peg_suffix p rfl))
    cases n1; cases n2; exact ⟨_, .and_tail_crit g1 g2, .crit _ _⟩
  | or_nil => exact fun _ => ⟨_, .or_nil _, .fail⟩
  | or_ok _ ih => intro ha; obtain ⟨_, g, n⟩ := ih ha; cases n with | ok n => exact ⟨_, .or_ok g, .ok n⟩
  | or_crit _ ih => intro ha; obtain ⟨_, g, n⟩ := ih ha; cases n; exact ⟨_, .or_crit g, .crit _ _⟩
  | or_next _ _ ih1 ih2 =>
    intro ha
    obtain ⟨_, g1, n1⟩ := ih1 ha
    obtain ⟨_, g2, n2⟩ := ih2 ha
    cases n1; exact ⟨_, .or_next g1 g2, n2⟩
  | not_ok _ ih => intro ha; obtain ⟨_, g, n⟩ := ih ha; cases n; exact ⟨_, .not_ok g, .fail⟩
  | not_fail _ ih => intro ha; obtain ⟨_, g, n⟩ := ih ha; cases n; exact ⟨_, .not_fail g, .ok rfl⟩
  | not_crit _ ih => intro ha; obtain ⟨_, g, n⟩ := ih ha; cases n; exact ⟨_, .not_crit g, .ok rfl⟩
  | rep_full => exact fun _ => ⟨_, .rep_full _ _ _, .ok rfl⟩
  | rep_more hm p _ ih1 ih2 =>
    intro ha
    obtain ⟨_, g1, n1⟩ := ih1 ha
    obtain ⟨_, g2, n2⟩ := ih2 (ascii_suffix ha (peg_suffix p rfl))
    cases n1 with | ok n1 => cases n2 with | ok n2 => exact ⟨_, .rep_more hm g1 g2, .ok (joins_append n1 n2)⟩
  | rep_stop hm _ ih => intro ha; obtain ⟨_, g, n⟩ := ih ha; cases n; exact ⟨_, .rep_stop hm g, .ok rfl⟩
  | rep_few hm h _ ih => intro ha; obtain ⟨_, g, n⟩ := ih ha; cases n; exact ⟨_, .rep_few hm h g, .fail⟩
  | rep_crit hm _ ih => intro ha; obtain ⟨_, g, n⟩ := ih ha; cases n; exact ⟨_, .rep_crit hm g, .crit _ _⟩
  | rep_more_fail hm p _ ih1 ih2 =>
    intro ha
    obtain ⟨_, g1, n1⟩ := ih1 ha
    obtain ⟨_, g2, n2⟩ := ih2 (ascii_suffix ha (peg_suffix p rfl))
    cases n1; cases n2; exact ⟨_, .rep_more_fail hm g1 g2, .fail⟩
  | rep_more_crit hm p _ ih1 ih2 =>
    intro ha
    obtain ⟨_, g1, n1⟩ := ih1 ha
    obtain ⟨_, g2, n2⟩ := ih2 (ascii_suffix ha (peg_suffix p rfl))
    cases n1; cases n2; exact ⟨_, .rep_more_crit hm g1 g2, .crit _ _⟩
  | call_ok hg _ ih =>
    intro ha
    obtain ⟨e, h2, h3⟩ := h1 _ _ hg
    obtain ⟨_, g, n⟩ := ih ha
    cases n with
    | ok n => obtain ⟨_, g', n'⟩ := h3.oks ha g; exact ⟨_, .call_ok h2 g', .ok (joins_rule (n.trans n'))⟩
  | call_fail hg _ ih =>
    intro ha
    obtain ⟨e, h2, h3⟩ := h1 _ _ hg
    obtain ⟨_, g, n⟩ := ih ha
    cases n
    exact ⟨_, .call_fail h2 (h3.fails ha g), .fail⟩
  | call_crit hg _ ih =>
    intro ha
    obtain ⟨e, h2, h3⟩ := h1 _ _ hg
    obtain ⟨_, g, n⟩ := ih ha
    cases n
    exact ⟨_, .call_crit h2 (h3.crits ha g), .crit _ _⟩
  | call_missing hg => exact fun _ => ⟨_, .call_missing (h0 _ hg), .crit _ _⟩

theorem glueRules_symm {R R'} (h : GlueRules R R') : GlueRules R' R := by
  intro n
  have := h n
  cases h1 : R.entries.lookup n <;> cases h2 : R'.entries.lookup n <;> rw [h1, h2] at this <;>
    first | exact this | exact Glue.symm this

theorem glueRules_peg {R R'} (h : GlueRules R R') {x s o} (ha : Ascii s) (hp : Peg (denotes R') x s o) :
    ∃ o', Peg (denotes R) x s o' ∧ Near o o' := by
  refine near_transfer ?_ ?_ hp ha
  · intro n hn
    have := h n
    unfold denotes grammar at hn ⊢
    cases h1 : R.entries.lookup n <;> cases h2 : R'.entries.lookup n <;> rw [h1, h2] at this <;>
      simp_all
  · intro n e' hn
    have := h n
    unfold denotes grammar at hn ⊢
    cases h1 : R.entries.lookup n with
    | none => cases h2 : R'.entries.lookup n <;> rw [h1, h2] at this <;> simp_all
    | some e =>
      cases h2 : R'.entries.lookup n with
      | none => rw [h1, h2] at this; exact this.elim
      | some e2 =>
        rw [h1, h2] at this
        rw [h2] at hn
        simp only [Option.map_some, Option.some.injEq] at hn
        subst hn
        exact ⟨effective e, rfl, (glue_near this).2⟩

end DP
