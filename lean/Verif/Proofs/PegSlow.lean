import Verif.Proofs.PegCost
import Verif.Proofs.SynDoc

/-!
# PEG texts that take quadratically many calls to read

In `main = x x ... x`, followed by blanks, every element starts a sequence inside of the sequence before it
(src/peg/rules.rs, `and`: `_1 _ !(...) and`), and each of them skips the blanks at the end to look for a
further element.
-/

namespace DP
open Spec PegRules Spec.Syntax

/-- `x x x ...` -/
def xTail : Nat → Syntax.Tail
  | 0 => .nil
  | j + 1 => .item [.sp] (.plain (.ref c!"x")) (xTail j)

theorem x_valid : ValidName c!"x" := ⟨[], c!"x", [], Or.inl rfl, ⟨'x', [], rfl, by decide, by decide⟩, .nil, rfl⟩

theorem x_like (t : Syntax.Tail) : ¬ LooksLikeError (.plain (.ref c!"x")) t := by
  cases t with
  | item g i t => intro h; simp [LooksLikeError] at h
  | _ => intro h; cases h

theorem x_ok : (Syntax.Item.plain (.ref c!"x")).OK := by rw [Item.OK, Atom.OK]; exact x_valid

theorem xTail_ok : ∀ j, (xTail j).OK
  | 0 => by rw [xTail, Tail.OK]; trivial
  | j + 1 => by rw [xTail, Tail.OK]; exact ⟨⟨trivial, _, _, rfl, rfl⟩, x_ok, xTail_ok j, x_like _⟩

theorem x_str : (Syntax.Item.plain (.ref c!"x")).str = c!"x" := by rw [Item.str, Atom.str]

theorem bill_kind {G e s c o r ns} (h : Bill G e s c o) (hp : Peg G e s (.ok r ns)) : o = .yes r := bill_as h hp

section
variable {r0 : Str} {k : Nat}

/-- the round that finds no further element skips the blanks before it sees that -/
theorem last_round {s c o} (hs : s = ' ' :: r0) (hk : ∀ c o, Bill GP (.ruleName c!"_") r0 c o → k ≤ c) (h : Bill GP eTail s c o) : k ≤ c := by
  subst hs
  have h1 : Peg GP (.ruleName c!"_1") (' ' :: r0) (.ok r0 [.rule c!"_1" [.val c!" "]]) := .call_ok gp_one (.or_ok (.lit_ok c!" " r0))
  cases h with
  | and_no h => cases bill_as h h1
  | and_stop h => cases bill_as h h1
  | and_yes h h2 =>
    cases bill_as h h1
    cases h2 with
    | and_no h2 => have := hk _ _ h2; omega
    | and_stop h2 => have := hk _ _ h2; omega
    | and_yes h2 _ => have := hk _ _ h2; omega

theorem last_star {s c o} (hs : s = ' ' :: r0) (hk : ∀ c o, Bill GP (.ruleName c!"_") r0 c o → k ≤ c) (h : Bill GP (.rep eTail 0 none) s c o) :
    k ≤ c := by
  cases h with
  | rep_yes _ h _ => have := last_round hs hk h; omega
  | rep_no _ h => have := last_round hs hk h; omega
  | rep_few _ _ h => have := last_round hs hk h; omega
  | rep_stop _ h => have := last_round hs hk h; omega

/-- each of the sequences inside of one another skips them again -/
theorem slow_and (hr : SeqEnd (' ' :: r0)) (hk : ∀ c o, Bill GP (.ruleName c!"_") r0 c o → k ≤ c) : ∀ j c o,
    Bill GP (.ruleName c!"and") (c!"x" ++ ((xTail j).str ++ ' ' :: r0)) c o → (j + 1) * k ≤ c := by
  intro j
  induction j with
  | zero =>
    intro c o h
    have he := item_noError x_ok (xTail_ok 0) (x_like _) hr
    obtain ⟨ns, hi, _⟩ := item_reads _ x_ok _ (tail_follow (xTail_ok 0) hr)
    rw [x_str] at he hi
    have h3 : ∀ c o, Bill GP (.and [.ruleName c!"rep_or_neg", .rep eTail 0 none]) (c!"x" ++ ((xTail 0).str ++ ' ' :: r0)) c o → k ≤ c := by
      intro c o h
      cases h with
      | and_no h => cases bill_as h hi
      | and_stop h => cases bill_as h hi
      | and_yes h h2 =>
        cases bill_as h hi
        cases h2 with
        | and_no h2 => have := last_star (by simp [xTail, Tail.str]) hk h2; omega
        | and_stop h2 => have := last_star (by simp [xTail, Tail.str]) hk h2; omega
        | and_yes h2 _ => have := last_star (by simp [xTail, Tail.str]) hk h2; omega
    cases h with
    | missing hg => cases hg
    | call hg h =>
      cases hg
      cases h with
      | or_yes h => cases bill_as h he
      | or_stop h => cases bill_as h he
      | or_no _ h =>
        cases h with
        | or_yes h => have := h3 _ _ h; omega
        | or_stop h => have := h3 _ _ h; omega
        | or_no h _ => have := h3 _ _ h; omega
  | succ j ih =>
    intro c o h
    have he := item_noError x_ok (xTail_ok (j + 1)) (x_like _) hr
    obtain ⟨ns, hi, _⟩ := item_reads _ x_ok _ (tail_follow (xTail_ok (j + 1)) hr)
    rw [x_str] at he hi
    have e0 : (xTail (j + 1)).str ++ ' ' :: r0 = ' ' :: (c!"x" ++ ((xTail j).str ++ ' ' :: r0)) := by
      simp [xTail, Tail.str, x_str, gapsStr, Gap.str]
    -- the first round reads the rest of the sequence
    have h1 : Peg GP (.ruleName c!"_1") (' ' :: (c!"x" ++ ((xTail j).str ++ ' ' :: r0))) (.ok (c!"x" ++ ((xTail j).str ++ ' ' :: r0)) [.rule c!"_1" [.val c!" "]]) :=
      .call_ok gp_one (.or_ok (.lit_ok c!" " _))
    obtain ⟨nw, h2⟩ := ws_ok (gs := []) (r := c!"x" ++ ((xTail j).str ++ ' ' :: r0)) trivial (Start.noGap (c := 'x') (by decide))
    rw [show gapsStr [] = [] from rfl, List.nil_append] at h2
    have h4 := item_noHead x_ok (tail_follow (xTail_ok j) hr) (tail_after (xTail_ok j) hr)
    rw [x_str] at h4
    obtain ⟨na, h5, _⟩ := seq_reads (.item (.plain (.ref c!"x")) (xTail j)) (by rw [Seq.OK]; exact ⟨x_ok, xTail_ok j, x_like _⟩) _ hr
    rw [Seq.str, x_str, List.append_assoc] at h5
    have h6 : Peg GP eTail (' ' :: (c!"x" ++ ((xTail j).str ++ ' ' :: r0))) (.ok (' ' :: r0) _) := andC h1 (andC h2 (andC (.not_fail h4) (and1 h5)))
    have h7 : ∀ c o, Bill GP eTail (' ' :: (c!"x" ++ ((xTail j).str ++ ' ' :: r0))) c o → (j + 1) * k ≤ c := by
      intro c o h
      cases h with
      | and_no h => cases bill_as h h1
      | and_stop h => cases bill_as h h1
      | and_yes h h8 =>
        cases bill_as h h1
        cases h8 with
        | and_no h => cases bill_as h h2
        | and_stop h => cases bill_as h h2
        | and_yes h h8 =>
          cases bill_as h h2
          cases h8 with
          | and_no h => cases bill_as h (.not_fail h4)
          | and_stop h => cases bill_as h (.not_fail h4)
          | and_yes h h8 =>
            cases bill_as h (.not_fail h4)
            cases h8 with
            | and_no h => have := ih _ _ h; omega
            | and_stop h => have := ih _ _ h; omega
            | and_yes h _ => have := ih _ _ h; omega
    have h8 : ∀ c o, Bill GP (.rep eTail 0 none) (' ' :: (c!"x" ++ ((xTail j).str ++ ' ' :: r0))) c o → (j + 1 + 1) * k ≤ c := by
      intro c o h
      rw [Nat.succ_mul]
      cases h with
      | rep_yes _ h h9 =>
        have := h7 _ _ h
        cases bill_as h h6
        have := last_star rfl hk h9
        omega
      | rep_no _ h => cases bill_as h h6
      | rep_few _ _ h => cases bill_as h h6
      | rep_stop _ h => cases bill_as h h6
    rw [e0] at h he hi
    have h3 : ∀ c o, Bill GP (.and [.ruleName c!"rep_or_neg", .rep eTail 0 none]) (c!"x" ++ (' ' :: (c!"x" ++ ((xTail j).str ++ ' ' :: r0)))) c o →
        (j + 1 + 1) * k ≤ c := by
      intro c o h
      cases h with
      | and_no h => cases bill_as h hi
      | and_stop h => cases bill_as h hi
      | and_yes h h2 =>
        cases bill_as h hi
        cases h2 with
        | and_no h2 => have := h8 _ _ h2; omega
        | and_stop h2 => have := h8 _ _ h2; omega
        | and_yes h2 _ => have := h8 _ _ h2; omega
    cases h with
    | missing hg => cases hg
    | call hg h =>
      cases hg
      cases h with
      | or_yes h => cases bill_as h he
      | or_stop h => cases bill_as h he
      | or_no _ h =>
        cases h with
        | or_yes h => have := h3 _ _ h; omega
        | or_stop h => have := h3 _ _ h; omega
        | or_no h _ => have := h3 _ _ h; omega

end

theorem blanks_cost (t : Str) : ∀ k c o, Bill GP (.ruleName c!"_") (List.replicate k ' ' ++ t) c o → k ≤ c := by
  have h : ∀ k c o, Bill GP e__ (List.replicate k ' ' ++ t) c o → k ≤ c := by
    intro k
    induction k with
    | zero => intro c o _; omega
    | succ k ih =>
      intro c o h
      have h1 : Peg GP (.or [.simple (.literal c!" "), .ruleName c!"eol", .ruleName c!"comment"]) (' ' :: (List.replicate k ' ' ++ t))
          (.ok (List.replicate k ' ' ++ t) [.val c!" "]) := .or_ok (.lit_ok c!" " _)
      rw [List.replicate_succ, List.cons_append] at h
      cases h with
      | rep_yes _ h h2 =>
        cases bill_as h h1
        have := ih _ _ h2
        cases h with
        | or_yes h => omega
        | or_no h _ => cases bill_as h (.lit_ok c!" " _)
      | rep_no _ h => cases bill_as h h1
      | rep_few _ _ h => cases bill_as h h1
      | rep_stop _ h => cases bill_as h h1
  intro k c o hb
  cases hb with
  | missing hg => cases hg
  | call hg hb => cases hg; have := h _ _ _ hb; omega

/-- what is paid for a part is paid for the whole -/
theorem into_and {G e es s c o} (h : Bill G (.and (e :: es)) s c o) : ∃ c' o', Bill G e s c' o' ∧ c' ≤ c := by
  cases h with
  | and_no h => exact ⟨_, _, h, by omega⟩
  | and_stop h => exact ⟨_, _, h, by omega⟩
  | and_yes h _ => exact ⟨_, _, h, by omega⟩

theorem past_and {G e es s c o r ns} (h : Bill G (.and (e :: es)) s c o) (hp : Peg G e s (.ok r ns)) : ∃ c', Bill G (.and es) r c' o ∧ c' ≤ c := by
  cases h with
  | and_no h => cases bill_as h hp
  | and_stop h => cases bill_as h hp
  | and_yes h h2 => cases bill_as h hp; exact ⟨_, h2, by omega⟩

theorem into_or {G e es s c o} (h : Bill G (.or (e :: es)) s c o) : ∃ c' o', Bill G e s c' o' ∧ c' ≤ c := by
  cases h with
  | or_yes h => exact ⟨_, _, h, by omega⟩
  | or_stop h => exact ⟨_, _, h, by omega⟩
  | or_no h _ => exact ⟨_, _, h, by omega⟩

theorem into_rep {G e m s c o} (h : Bill G (.rep e m none) s c o) : ∃ c' o', Bill G e s c' o' ∧ c' ≤ c := by
  cases h with
  | rep_yes _ h _ => exact ⟨_, _, h, by omega⟩
  | rep_no _ h => exact ⟨_, _, h, by omega⟩
  | rep_few _ _ h => exact ⟨_, _, h, by omega⟩
  | rep_stop _ h => exact ⟨_, _, h, by omega⟩

theorem into_rule {G n e s c o} (hg : G n = some e) (h : Bill G (.ruleName n) s c o) : ∃ c', Bill G e s c' o ∧ c' < c := by
  cases h with
  | missing h => rw [hg] at h; cases h
  | call h hb => rw [hg] at h; cases h; exact ⟨_, hb, by omega⟩

theorem main_valid : ValidName c!"main" := ⟨[], c!"main", [], Or.inl rfl, ⟨'m', c!"ain", rfl, by decide, by decide⟩, .nil, rfl⟩

/-- `main = x x ... x`, followed by blanks -/
def slowDoc (m : Nat) : Doc := ⟨[], .one (.rule c!"main" [.sp] [.sp] (.one (.item (.plain (.ref c!"x")) (xTail m))) ⟨List.replicate (m + 1) .sp, .lf, []⟩)⟩

theorem gapsOK_sp : ∀ k, GapsOK (List.replicate k .sp ++ [.eol .lf])
  | 0 => trivial
  | 1 => ⟨trivial, by simp [Gap.endsCR], trivial⟩
  | k + 2 => by
    have := gapsOK_sp (k + 1)
    rw [List.replicate_succ, List.cons_append] at this
    rw [List.replicate_succ, List.replicate_succ, List.cons_append, List.cons_append]
    exact ⟨trivial, by simp [Gap.endsCR], this⟩

theorem term_sp (k : Nat) : (Term.mk (List.replicate k .sp) .lf []).OK :=
  ⟨gapsOK_sp k, fun g hg => by cases List.eq_of_mem_replicate hg; rfl⟩

theorem gapsStr_sp (k : Nat) : gapsStr (Term.mk (List.replicate k .sp) .lf []).gaps = List.replicate k ' ' ++ c!"\n" := by
  unfold Term.gaps
  induction k with
  | zero => rfl
  | succ k ih => rw [List.replicate_succ, List.cons_append, gapsStr]; simp only at ih; rw [ih]; rfl

theorem slowDoc_ok (m : Nat) : (slowDoc m).OK := by
  refine ⟨trivial, ?_⟩
  rw [slowDoc, Defs.OK, Def.OK, Alt.OK, Seq.OK]
  refine ⟨main_valid, trivial, trivial, ⟨x_ok, xTail_ok m, x_like _⟩, term_sp _⟩

theorem xTail_str : ∀ m, (xTail m).str = (List.replicate m c!" x").flatten
  | 0 => rfl
  | m + 1 => by rw [xTail, Tail.str, xTail_str m, x_str, List.replicate_succ]; rfl

theorem slowDoc_str (m : Nat) : (slowDoc m).str = c!"main = x" ++ ((xTail m).str ++ ' ' :: (List.replicate m ' ' ++ c!"\n")) := by
  rw [slowDoc, Doc.str, Defs.str, Def.str, gapsStr_sp, Alt.str, Seq.str, x_str, List.replicate_succ]
  simp [gapsStr, Gap.str, List.replicate_succ]

theorem slow_cost (m : Nat) {c o} (h : Bill GP (.ruleName c!"main") (slowDoc m).str c o) : m * m < c := by
  rw [slowDoc_str] at h
  have hr : SeqEnd (' ' :: (List.replicate m ' ' ++ c!"\n")) := by
    have := (term_end (term_sp (m + 1)) (r := []) (.inl fun c hc => by cases hc)).toSeqEnd
    rwa [List.append_nil, gapsStr_sp, List.replicate_succ] at this
  have key := slow_and hr (fun c o => blanks_cost c!"\n" m c o) m
  generalize (xTail m).str ++ ' ' :: (List.replicate m ' ' ++ c!"\n") = t at h key
  obtain ⟨c1, h, l1⟩ := into_rule gp_main h
  obtain ⟨c2, h, l2⟩ := into_rule gp_grammar h
  obtain ⟨c3, _, h, l3⟩ := into_rep h
  obtain ⟨c4, _, h, l4⟩ := into_or h
  obtain ⟨c5, h, l5⟩ := into_rule gp_rule h
  obtain ⟨_, p1⟩ := ws_none (r := c!"main = x" ++ t) (NoGap.of (by decide))
  obtain ⟨c6, h, l6⟩ := past_and h p1
  obtain ⟨_, p2, _⟩ := name_reads (n := c!"main") (r := c!" = x" ++ t) main_valid (nameEnd_gaps [.sp] (.inl rfl) (c!" x" ++ t))
  obtain ⟨c7, h, l7⟩ := past_and h p2
  obtain ⟨_, p3⟩ := ws_ok (gs := [.sp]) (r := c!"= x" ++ t) trivial (NoGap.of (by decide))
  obtain ⟨c8, h, l8⟩ := past_and h p3
  obtain ⟨c9, h, l9⟩ := past_and h (.lit_ok c!"=" (c!" x" ++ t))
  obtain ⟨_, p4⟩ := ws_ok (gs := [.sp]) (r := c!"x" ++ t) trivial (NoGap.of (by decide))
  obtain ⟨c10, h, l10⟩ := past_and h p4
  obtain ⟨c11, _, h, l11⟩ := into_and h
  obtain ⟨c12, h, l12⟩ := into_rule gp_expr h
  obtain ⟨c13, h, l13⟩ := into_rule gp_or h
  obtain ⟨c14, _, h, l14⟩ := into_and h
  have := key _ _ h
  rw [Nat.succ_mul] at this
  omega

end DP
