/-
Property C79: the rules listed in an error of `parse_debug` are those of the tree under construction.
-/
import Verif.Proofs.Trace
import Verif.Props.Report
import Verif.Props.TreeSize

namespace DP
open Spec

variable {G : Str → Option Expr}

theorem partly_text {e s ns m q} (h : Partly G e s ns m q) :
    s = (textL ns ++ openText m) ++ q ∨
      q = [] ∧ ∃ k, textL ns ++ openText m = s ++ (List.replicate k c!"EOF").flatten := by
  have comp : ∀ {s r q u v : Str},
      (s = u ++ r ∨ r = [] ∧ ∃ k, u = s ++ (List.replicate k c!"EOF").flatten) →
      (r = v ++ q ∨ q = [] ∧ ∃ k, v = r ++ (List.replicate k c!"EOF").flatten) →
      (s = (u ++ v) ++ q ∨ q = [] ∧ ∃ k, u ++ v = s ++ (List.replicate k c!"EOF").flatten) := by
    intro s r q u v h1 h2
    rcases h1 with h1 | ⟨hq, k1, h1⟩
    · rcases h2 with h2 | ⟨hr, k2, h2⟩
      · left; rw [h1, h2]; simp
      · right; exact ⟨hr, k2, by rw [h1, h2]; simp⟩
    · rcases h2 with h2 | ⟨hr, k2, h2⟩
      · rw [hq] at h2
        have h2' := List.append_eq_nil_iff.mp h2.symm
        right; exact ⟨h2'.2, k1, by rw [h1, h2'.1]; simp⟩
      · right
        refine ⟨hr, k1 + k2, ?_⟩
        rw [h1, h2, hq, ← List.replicate_append_replicate, List.flatten_append, List.append_assoc,
          List.nil_append]
  induction h with
  | start | enter => left; simp [textL, leavesL, openText]
  | done h => simpa [openText] using peg_text_eof h _ _ rfl
  | and_head _ ih | or_head _ ih | or_tail _ _ ih | rep_head _ _ ih => exact ih
  | and_tail h _ ih | rep_tail _ h _ ih =>
    have := comp (peg_text_eof h _ _ rfl) ih
    rwa [← List.append_assoc, ← textL_append] at this
  | body _ _ ih => simpa [openText, textL, leavesL] using ih

theorem partly_suffix {e s ns m q} (h : Partly G e s ns m q) : q <:+ s := by
  induction h with
  | start | enter => exact List.suffix_refl _
  | done h => exact peg_suffix h rfl
  | and_tail h _ ih | rep_tail _ h _ ih => exact ih.trans (peg_suffix h rfl)
  | and_head _ ih | or_head _ ih | or_tail _ _ ih | rep_head _ _ ih | body _ _ ih => exact ih

/-- **C79**: when `parse_debug` returns an error, its `parsing_rules` list the rules of the tree under construction: those
that have been entered and not left, from `main` on, each followed by the complete ones that it has called so far.
The place of the error is where the construction has got to, plus what a terminal has read before it was found not to match. -/
theorem C79_trace_is_tree_under_construction {s : Str} {R : SetOfRules} {e : Error} (h : parseDebug s R = .err e) :
    ∃ ns m q pre, Partly (denotes R) (.ruleName c!"main") s ns m q ∧
      e.parsingRules = (ruleNamesL ns ++ openNames m).map (c!"r:" ++ ·) ∧
      s = pre ++ q ∧ pre.length ≤ e.pos.n ∧ e.pos.n ≤ pre.length + readAhead e.descr := by
  obtain ⟨_, f, hr, hd⟩ := (C47_parse_debug_err_iff s R e).1 h
  obtain ⟨ns, m, q, read, hp, hf, hq, hl⟩ := rejects_arises hr
  obtain ⟨pre', hs, hc⟩ := hd.pos
  obtain ⟨pre, hpre⟩ := partly_suffix hp
  have hpr : pre' = pre ++ read := by
    rw [hs, hq, ← List.append_assoc] at hpre
    exact (List.append_cancel_right hpre).symm
  have hn : e.pos.n = pre.length + read.length := by rw [hc.n, hpr, List.length_append]
  rw [← hd.descr] at hl
  refine ⟨ns, m, q, pre, hp, ?_, hpre.symm, by omega, by omega⟩
  rw [hd.parsingRules, hf]
  simp [marks]

/-- The nodes of the tree under construction spell the text up to there (followed by copies of "EOF" only at the end). -/
theorem C79_spells_what_was_read {R : SetOfRules} {s q : Str} {ns : List Node} {m : List Frame}
    (h : Partly (denotes R) (.ruleName c!"main") s ns m q) :
    s = (textL ns ++ openText m) ++ q ∨
      q = [] ∧ ∃ k, textL ns ++ openText m = s ++ (List.replicate k c!"EOF").flatten := partly_text h

/-- **C79**: the list is at most proportional to the text, whatever the rules are. -/
theorem C79_trace_size (R : SetOfRules) :
    ∃ K, ∀ s e, parseDebug s R = .err e → e.parsingRules.length ≤ K * (s.length + 1) := by
  obtain ⟨W, hW⟩ := rules_bound (fun e => esize (effective e)) R
  generalize ht : (W + 1) * (R.entries.map Prod.fst).length + (W + 1) = top
  refine ⟨2 ^ top * 4 ^ top, fun s e h => ?_⟩
  obtain ⟨_, f, hr, hd⟩ := (C47_parse_debug_err_iff s R e).1 h
  obtain ⟨o, ho⟩ : ∃ o, Peg (denotes R) (.ruleName c!"main") s o := by
    cases hr with
    | failed h | kept h | unread h => exact ⟨_, reports_peg h⟩
  obtain ⟨ns, m, q, pre, hp, hl, _⟩ := C79_trace_is_tree_under_construction h
  have h1 := partly_size (G := denotes R) (l := R.entries.map Prod.fst) (W := W + 1) (fun n e hg => mem_keys hg)
    (fun n e hg => by
      obtain ⟨e', h1, rfl⟩ := Option.map_eq_some_iff.1 hg
      exact Nat.succ_le_succ (hW n e' h1)) ht.symm rfl rfl hp ho (by simp [esize]) [] List.nodup_nil (by simp)
    avoids_nil
  have h2 := cheap_le h1 (b := top) (by simp only [List.length_nil, Nat.sub_zero, esize]; omega)
  have h3 := ruleNamesL_length ns
  have h4 := openNames_length m
  have h5 : e.parsingRules.length ≤ forestSize ns + framesSize m := by
    rw [hl, List.length_map, List.length_append]; omega
  refine Nat.le_trans h5 ?_
  rcases Nat.eq_zero_or_pos (s.length - q.length) with h0 | h0
  · have h6 := h2.1 h0
    have h7 : 2 ^ top * 1 ≤ 2 ^ top * 4 ^ top := Nat.mul_le_mul_left _ (Nat.pow_pos (by omega))
    have h8 : 2 ^ top * 4 ^ top * 1 ≤ 2 ^ top * 4 ^ top * (s.length + 1) := Nat.mul_le_mul_left _ (by omega)
    omega
  · have h6 := h2.2 h0
    have h7 : 2 ^ top * 4 ^ top * (s.length - q.length - 1 + 1) ≤ 2 ^ top * 4 ^ top * (s.length + 1) :=
      Nat.mul_le_mul_left _ (by omega)
    rw [Nat.mul_add] at h7
    omega

/-! ### It grows with the text -/

/-- `main = x* "b"`, `x = "a"` -/
def exTrace : SetOfRules := ⟨[(c!"main", .and [.rep (.ruleName c!"x") 0 none, .simple (.literal c!"b")]),
  (c!"x", .simple (.literal c!"a"))]⟩

theorem exTrace_rep (n : Nat) : ∀ j : Journal, ∃ j' ns, j'.rules = j.rules ++ List.replicate n c!"r:x" ∧
    Reports (denotes exTrace) true (.rep (.ruleName c!"x") 0 none) j (List.replicate n 'a') (.ok [] ns j') := by
  have hx : denotes exTrace c!"x" = some (.simple (.literal c!"a")) := by rfl
  induction n with
  | zero =>
    intro j
    exact ⟨_, [], by simp, .rep_stop (by simp) (.call_bad hx (.lit_short [] 'a' [] _)) rfl⟩
  | succ n ih =>
    intro j
    obtain ⟨j', ns, h1, h2⟩ := ih (j.enter true c!"x")
    refine ⟨j', _, ?_, .rep_more (by simp) (.call_ok hx (.lit_ok c!"a" (List.replicate n 'a') _)) h2⟩
    rw [h1]
    simp [Journal.enter, List.replicate_succ]

/-- The rules that have been left stay in the list: on `n` letters the error of `main = x* "b"` lists `main` and `n` times `x`. -/
theorem C79_trace_grows (n : Nat) : ∃ e, parseDebug (List.replicate n 'a') exTrace = .err e ∧
    e.parsingRules = c!"r:main" :: List.replicate n c!"r:x" := by
  have hm : denotes exTrace c!"main" =
      some (.and [.rep (.ruleName c!"x") 0 none, .simple (.literal c!"b")]) := by rfl
  obtain ⟨j', ns, h1, h2⟩ := exTrace_rep n (Journal.blank.enter true c!"main")
  have hr : Rejects (denotes exTrace) true (List.replicate n 'a') ⟨.literal c!"b", .normal, [], j'.rules⟩ :=
    .failed (.call_bad hm (.and_tail_bad h2 (.and_bad (.lit_short [] 'b' [] _))))
  have ha : Ascii (List.replicate n 'a') := by
    intro c hc; rw [List.eq_of_mem_replicate hc]; decide
  refine ⟨⟨⟨_, _, _, _⟩, _, lastLine (List.replicate n 'a'), [], j'.rules, _⟩, (C47_parse_debug_err_iff _ _ _).2
    ⟨(C47_ascii ha).1 _ _, _, hr, ⟨rfl, rfl, rfl, ⟨_, (List.append_nil _).symm, ⟨rfl, rfl, rfl, rfl⟩⟩, ?_, rfl⟩⟩, ?_⟩
  · exact ((C47_ascii ha).2 _ [] _ (List.append_nil _).symm).2 rfl
  · rw [h1]; simp [Journal.enter, Journal.blank]

/-- On "aac" with `main = x* "b"` two rules `x` are complete inside `main`, and the text "aa" has been matched. -/
example : ∃ ns m q pre, Partly (denotes exTrace) (.ruleName c!"main") c!"aac" ns m q ∧
    [c!"r:main", c!"r:x", c!"r:x"] = (ruleNamesL ns ++ openNames m).map (c!"r:" ++ ·) ∧
    c!"aac" = pre ++ q ∧ pre.length ≤ 3 ∧ 3 ≤ pre.length + readAhead (.literal c!"b") :=
  C79_trace_is_tree_under_construction (e := ⟨⟨3, 0, 3, 0⟩, .literal c!"b", c!"aac", [], [c!"r:main", c!"r:x", c!"r:x"], .normal⟩)
    (parseDebug_of_fuel (f := 20) (by decide +kernel) (by simp))

example : Partly (denotes exTrace) (.ruleName c!"main") c!"aac" []
    [(c!"main", [.rule c!"x" [.val c!"a"], .rule c!"x" [.val c!"a"]])] c!"c" :=
  .body (ns := [.rule c!"x" [.val c!"a"], .rule c!"x" [.val c!"a"]]) rfl
    (.and_head (.rep_tail (by simp) (.call_ok rfl (.lit_ok c!"a" c!"ac"))
      (.rep_tail (by simp) (.call_ok rfl (.lit_ok c!"a" c!"c")) (.start _ _))))

end DP
