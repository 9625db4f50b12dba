/-
The flat AST that `rules_from_peg` works on, computed from the tree of the parse.
-/
import Verif.Props.Ast
import Verif.Props.Errors
import Verif.Props.Termination
import Verif.Proofs.PegFuel
import Verif.Proofs.PegInv

namespace DP
open Spec

/-- the names removed by `rules_from_peg` -/
def blanks : List Str := [c!"_", c!"_1", c!"_eol"]

/-- children of a rule after `compact`, `prune` and `flatten` -/
def flatList (ns : List Node) : List FNode := flattenFold [] (Node.pruneList blanks (Node.compactNodes [] ns))

/-- a rule node after `compact`, `prune` and `flatten` -/
def flatRule (n : Str) (ns : List Node) : List FNode :=
  if n ∈ blanks then [] else .beginRule n :: flatList ns ++ [.endRule n]

theorem flatList_nil : flatList [] = [] := by
  simp [flatList, Node.compactNodes, Node.pruneList, flattenFold]

theorem flatList_rule (n ns rest) : flatList (.rule n ns :: rest) = flatRule n ns ++ flatList rest := by
  unfold flatList flatRule
  rw [Node.compactNodes, Node.concatNodes, compactNodes_acc _ _ (Or.inr (by simp)), List.nil_append,
    List.singleton_append, Node.pruneList, Node.isNamedIn, any_eq_mem]
  by_cases h : n ∈ blanks
  · rw [if_neg (by simp [h]), if_pos h]; rfl
  · rw [if_pos (by simp [h]), if_neg h, flattenFold_cons, Node.prune, flatten_rule]; rfl

theorem flatList_vals {vs : List Str} {rest : List Node} (hv : vs ≠ []) (hr : ∀ v r, rest ≠ .val v :: r) :
    flatList (vs.map Node.val ++ rest) = .val vs.flatten :: flatList rest := by
  cases vs with
  | nil => exact absurd rfl hv
  | cons v vs =>
    unfold flatList
    have h := compactNodes_run [] v vs rest
    rw [List.nil_append, List.nil_append] at h
    rw [List.map_cons, List.cons_append, Node.compactNodes, Node.concatNodes]
    simp only [List.getLast?_nil, List.nil_append]
    rw [h, compactNodes_acc [_] rest (Or.inl hr), List.singleton_append, Node.pruneList, Node.prune,
      if_pos (by simp [Node.isNamedIn]), flattenFold_cons, flatten_val]
    rfl

theorem flatList_val {v : Str} {rest : List Node} (hr : ∀ v r, rest ≠ .val v :: r) :
    flatList (.val v :: rest) = .val v :: flatList rest := by
  have := flatList_vals (vs := [v]) (by simp) hr
  simpa using this

theorem flatList_val_rule (v n ns rest) : flatList (.val v :: .rule n ns :: rest) =
    .val v :: (flatRule n ns ++ flatList rest) := by
  rw [flatList_val (by simp), flatList_rule]

theorem flatList_allvals {vs : List Str} (hv : vs ≠ []) : flatList (vs.map Node.val) = [.val vs.flatten] := by
  have := flatList_vals (rest := []) hv (by simp)
  simpa [flatList_nil] using this

theorem pegFlat_rule (n ns) : pegFlat (.rule n ns) = .beginRule n :: flatList ns ++ [.endRule n] := by
  unfold pegFlat flatList
  rw [Node.compact, Node.prune, flatten_rule]
  rfl

/-! ### Every rule node of the tree has a derivation -/

theorem peg_suffix {G : Str → Option Expr} {e s o} (h : Peg G e s o) : ∀ {r ns}, o = .ok r ns → r <:+ s := by
  induction h with
  | lit_ok l r => intro r ns ho; cases ho; exact ⟨l, rfl⟩
  | class_ok _ _ c r _ => intro r ns ho; cases ho; exact ⟨[c], rfl⟩
  | dot_ok c r => intro r ns ho; cases ho; exact ⟨[c], rfl⟩
  | eof_ok => intro r ns ho; cases ho; exact List.suffix_refl _
  | call_ok _ _ ih => intro r ns ho; cases ho; exact ih rfl
  | and_ok _ _ ih1 ih2 => intro r ns ho; cases ho; exact (ih2 rfl).trans (ih1 rfl)
  | rep_more _ _ _ ih1 ih2 => intro r ns ho; cases ho; exact (ih2 rfl).trans (ih1 rfl)
  | or_ok _ ih => exact ih
  | or_next _ _ _ ih => exact ih
  | and_nil | not_fail | not_crit | rep_full | rep_stop =>
    intro r ns ho; cases ho; exact List.suffix_refl _
  | _ => intro r ns ho; cases ho

theorem peg_under {G : Str → Option Expr} {e s o} (h : Peg G e s o) : ∀ {r ns}, o = .ok r ns →
    ∀ t ∈ ns, ∀ n cs, Under t (.rule n cs) →
      ∃ e' s' r', G n = some e' ∧ s' <:+ s ∧ Peg G e' s' (.ok r' cs) := by
  have weaken : ∀ {n : Str} {cs : List Node} {a b : Str}, a <:+ b →
      (∃ e' s' r', G n = some e' ∧ s' <:+ a ∧ Peg G e' s' (.ok r' cs)) →
      ∃ e' s' r', G n = some e' ∧ s' <:+ b ∧ Peg G e' s' (.ok r' cs) := by
    rintro n cs a b hab ⟨e', s', r', h1, h2, h3⟩
    exact ⟨e', s', r', h1, h2.trans hab, h3⟩
  induction h with
  | call_ok hg h ih =>
    intro r ns ho t ht n cs hu
    cases ho
    simp only [List.mem_singleton] at ht
    subst ht
    cases hu with
    | refl => exact ⟨_, _, _, hg, List.suffix_refl _, h⟩
    | child hm hu => exact ih rfl _ hm _ _ hu
  | and_ok h1 _ ih1 ih2 =>
    intro r ns ho t ht n cs hu
    cases ho
    rcases List.mem_append.mp ht with ht | ht
    · exact ih1 rfl t ht n cs hu
    · exact weaken (peg_suffix h1 rfl) (ih2 rfl t ht n cs hu)
  | rep_more _ h1 _ ih1 ih2 =>
    intro r ns ho t ht n cs hu
    cases ho
    rcases List.mem_append.mp ht with ht | ht
    · exact ih1 rfl t ht n cs hu
    · exact weaken (peg_suffix h1 rfl) (ih2 rfl t ht n cs hu)
  | or_ok _ ih => exact ih
  | or_next _ _ _ ih => exact ih
  | lit_ok | class_ok | dot_ok | eof_ok =>
    intro r ns ho t ht n cs hu
    cases ho
    simp only [List.mem_singleton] at ht
    subst ht
    cases hu
  | and_nil | not_fail | not_crit | rep_full | rep_stop =>
    intro r ns ho t ht
    cases ho
    cases ht
  | _ => intro r ns ho; cases ho

/-! ### Successful parses of PEG texts -/

mutual
/-- satisfiable bounds, as a check -/
def boundsB : Expr → Bool
  | .simple _ => true
  | .and es => boundsBs es
  | .or es => boundsBs es
  | .not e => boundsB e
  | .rep e _ none => boundsB e
  | .rep e mn (some m) => boundsB e && decide (1 ≤ m ∧ mn ≤ m)
  | .ruleName _ => true
def boundsBs : List Expr → Bool
  | [] => true
  | e :: es => boundsB e && boundsBs es
end

mutual
theorem boundsB_ok : ∀ e, boundsB e = true → BoundsOK e
  | .simple a, _ => .simple a
  | .and es, h => by rw [boundsB] at h; exact .and (boundsBs_ok es h)
  | .or es, h => by rw [boundsB] at h; exact .or (boundsBs_ok es h)
  | .not e, h => by rw [boundsB] at h; exact .not (boundsB_ok e h)
  | .rep e mn none, h => by
    rw [boundsB] at h
    exact .rep (boundsB_ok e h) (by simp)
  | .rep e mn (some m), h => by
    rw [boundsB, Bool.and_eq_true] at h
    refine .rep (boundsB_ok e h.1) ?_
    intro m hm
    cases hm
    simpa using h.2
  | .ruleName n, _ => .ruleName n
theorem boundsBs_ok : ∀ es, boundsBs es = true → ∀ e ∈ es, BoundsOK e
  | [], _, e, he => by cases he
  | x :: es, h, e, he => by
    rw [boundsBs, Bool.and_eq_true] at h
    rcases List.mem_cons.mp he with hx | he
    · exact hx ▸ boundsB_ok x h.1
    · exact boundsBs_ok es h.2 e he
end

theorem pegBounds : RulesBoundsOK PegRules.parsePeg := by
  have h : PegRules.parsePeg.entries.all (fun ne => boundsB ne.2) = true := by decide +kernel
  intro ne hne
  exact boundsB_ok _ (List.all_eq_true.mp h ne hne)

theorem denotes_peg : denotes PegRules.parsePeg = GP := denotes_of_boundsOK pegBounds

mutual
/-- no EOF atom outside negations, as a check -/
def noEofB : Expr → Bool
  | .simple .eof => false
  | .simple _ => true
  | .and es => noEofBs es
  | .or es => noEofBs es
  | .not _ => true
  | .rep e _ _ => noEofB e
  | .ruleName _ => true
def noEofBs : List Expr → Bool
  | [] => true
  | e :: es => noEofB e && noEofBs es
end

mutual
theorem noEofB_ok : ∀ e, noEofB e = true → NoEof e
  | .simple a, h => by
    cases a with
    | eof => simp [noEofB] at h
    | _ => exact .simple (by simp)
  | .and es, h => by rw [noEofB] at h; exact .and (noEofBs_ok es h)
  | .or es, h => by rw [noEofB] at h; exact .or (noEofBs_ok es h)
  | .not e, _ => .not e
  | .rep e mn mx, h => by rw [noEofB] at h; exact .rep (noEofB_ok e h)
  | .ruleName n, _ => .ruleName n
theorem noEofBs_ok : ∀ es, noEofBs es = true → ∀ e ∈ es, NoEof e
  | [], _, e, he => by cases he
  | x :: es, h, e, he => by
    rw [noEofBs, Bool.and_eq_true] at h
    rcases List.mem_cons.mp he with hx | he
    · exact hx ▸ noEofB_ok x h.1
    · exact noEofBs_ok es h.2 e he
end

theorem pegNoEof : ∀ ne ∈ PegRules.parsePeg.entries, NoEof ne.2 := by
  have h : PegRules.parsePeg.entries.all (fun ne => noEofB ne.2) = true := by decide +kernel
  intro ne hne
  exact noEofB_ok _ (List.all_eq_true.mp h ne hne)

/-- what a successful parse of a PEG text provides -/
theorem peg_parse_ok {s t} (h : parse s PegRules.parsePeg = .ok t) :
    Peg GP (.ruleName c!"main") s (.ok [] [t]) ∧ Ascii s ∧ text t = s ∧ ∃ cs, t = .rule c!"main" cs := by
  have h1 := (C01_ok_means_everything_consumed h).2
  rw [denotes_peg] at h1
  refine ⟨h1, C17_ok_only_on_ascii h, C03_leaves_spell_input pegNoEof h, ?_⟩
  obtain ⟨cs, h2, _⟩ := inv_call gp_main h1
  simp only [List.cons.injEq, and_true] at h2
  exact ⟨cs, h2⟩

theorem pegWellFormed : WellFormed (denotes PegRules.parsePeg) :=
  wf_of_check (nul := [c!"_"])
    (ranks := [c!"dot", c!"eol", c!"_1", c!"line_comment", c!"mline_comment", c!"comment", c!"_'", c!"_\"",
      c!"lit_noesc", c!"esc_char", c!"hex_char", c!"lit_esc", c!"literal", c!"mbetween", c!"mchars",
      c!"match", c!"symbol", c!"mod_name", c!"rule_name", c!"atom", c!"parenth", c!"atom_or_par",
      c!"rep_or_neg", c!"error", c!"and", c!"or", c!"expr", c!"_", c!"_eol", c!"rule", c!"module",
      c!"grammar", c!"main"]) (by decide +kernel)

end DP
