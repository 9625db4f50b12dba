/-
Property C99: the calls that comparing, printing and dropping values have in progress.
-/
import Verif.Model.Derived
import Verif.Spec.Derived
import Verif.Props.Equal
import Verif.Props.TreeSize
import Verif.Props.GcodeCost
import Verif.Props.Complaint

namespace DP
open Spec

/-! ### `==` -/

mutual
theorem eqWithin_sound : ∀ d t t' b, eqWithin d t t' = some b → (b = true ↔ t = t')
  | 0, t, t', b, h => by rw [eqWithin] at h; cases h
  | d + 1, .val s, t', b, h => by cases t' <;> simp [eqWithin] at h <;> subst h <;> simp
  | d + 1, .eof, t', b, h => by cases t' <;> simp [eqWithin] at h <;> subst h <;> simp
  | d + 1, .rule n ns, .val s, b, h => by simp [eqWithin] at h; subst h; simp
  | d + 1, .rule n ns, .eof, b, h => by simp [eqWithin] at h; subst h; simp
  | d + 1, .rule n ns, .rule n' ns', b, h => by
    rw [eqWithin] at h
    by_cases h1 : n = n'
    · subst h1
      by_cases h2 : ns.length = ns'.length
      · simp only [beq_self_eq_true, if_true, h2] at h
        have := eqListWithin_sound d ns ns' b h2 h
        simpa using this
      · simp [h2] at h
        subst h
        simp only [Bool.false_eq_true, Node.rule.injEq, true_and, false_iff]
        rintro rfl
        exact h2 rfl
    · simp [h1] at h
      subst h
      simp [h1]
theorem eqListWithin_sound : ∀ d ts ts' b, ts.length = ts'.length → eqListWithin d ts ts' = some b → (b = true ↔ ts = ts')
  | d, [], [], b, _, h => by simp [eqListWithin] at h; subst h; simp
  | d, t :: ts, t' :: ts', b, hl, h => by
    rw [eqListWithin] at h
    cases h1 : eqWithin d t t' with
    | none => rw [h1] at h; cases h
    | some x =>
      have h2 := eqWithin_sound d t t' x h1
      rw [h1] at h
      cases x with
      | true =>
        have := eqListWithin_sound d ts ts' b (by simpa using hl) h
        have h3 : t = t' := by simpa using h2
        simpa [h3] using this
      | false =>
        cases h
        have h3 : t ≠ t' := by simpa using h2
        simp [h3]
end

mutual
theorem eqWithin_enough : ∀ d t t', min (treeDepth t) (treeDepth t') ≤ d → eqWithin d t t' ≠ none
  | 0, t, t', h => by cases t <;> cases t' <;> simp [treeDepth] at h
  | d + 1, .val s, t', _ => by cases t' <;> simp [eqWithin]
  | d + 1, .eof, t', _ => by cases t' <;> simp [eqWithin]
  | d + 1, .rule n ns, .val s, _ => by simp [eqWithin]
  | d + 1, .rule n ns, .eof, _ => by simp [eqWithin]
  | d + 1, .rule n ns, .rule n' ns', h => by
    rw [eqWithin]
    split
    · split
      · exact eqListWithin_enough d ns ns' (by rw [treeDepth, treeDepth] at h; omega)
      · simp
    · simp
theorem eqListWithin_enough : ∀ d ts ts', min (forestDepth ts) (forestDepth ts') ≤ d → eqListWithin d ts ts' ≠ none
  | d, [], ts', _ => by simp [eqListWithin]
  | d, t :: ts, [], _ => by simp [eqListWithin]
  | d, t :: ts, t' :: ts', h => by
    rw [forestDepth, forestDepth] at h
    rw [eqListWithin]
    have h1 := eqWithin_enough d t t' (by omega)
    have h2 := eqListWithin_enough d ts ts' (by omega)
    split
    · exact h2
    · simp
    · exact absurd ‹_› h1
end

mutual
theorem eqWithin_self : ∀ d t, eqWithin d t t = if treeDepth t ≤ d then some true else none
  | 0, t => by cases t <;> simp [eqWithin, treeDepth]
  | d + 1, .val s => by simp [eqWithin, treeDepth]
  | d + 1, .eof => by simp [eqWithin, treeDepth]
  | d + 1, .rule n ns => by simp [eqWithin, treeDepth, eqListWithin_self d ns]
theorem eqListWithin_self : ∀ d ts, eqListWithin d ts ts = if forestDepth ts ≤ d then some true else none
  | d, [] => by simp [eqListWithin, forestDepth]
  | d, t :: ts => by
    rw [eqListWithin, eqWithin_self d t, eqListWithin_self d ts, forestDepth]
    by_cases h1 : treeDepth t ≤ d <;> by_cases h2 : forestDepth ts ≤ d <;> simp [h1, h2]
end

/-- **C99**: `==` of equal trees has as many calls in progress as they are deep. -/
theorem C99_equal (d : Nat) (t : Node) : eqWithin d t t = if treeDepth t ≤ d then some true else none := eqWithin_self d t

/-- **C99**: the depth of the less deep one is always enough, and the answer is the one of `==`. -/
theorem C99_compare {d : Nat} {t t' : Node} (h : min (treeDepth t) (treeDepth t') ≤ d) : eqWithin d t t' = some (Equal.node t t') := by
  obtain ⟨b, hb⟩ := Option.ne_none_iff_exists'.1 (eqWithin_enough d t t' h)
  have h1 := eqWithin_sound d t t' b hb
  have h2 := C66_equality.1 t t'
  rw [hb, Option.some.injEq, Bool.eq_iff_iff, h1, h2]

/-- **C99**: and whenever there is an answer. -/
theorem C99_same_answer {d : Nat} {t t' : Node} {b : Bool} (h : eqWithin d t t' = some b) : b = Equal.node t t' := by
  rw [Bool.eq_iff_iff, eqWithin_sound d t t' b h, C66_equality.1 t t']

theorem eqListWithin_append {d : Nat} : ∀ {pre us vs : List Node}, forestDepth pre ≤ d → eqListWithin d (pre ++ us) (pre ++ vs) = eqListWithin d us vs
  | [], _, _, _ => rfl
  | t :: pre, us, vs, h => by
    rw [forestDepth] at h
    rw [List.cons_append, List.cons_append, eqListWithin, eqWithin_self, if_pos (by omega)]
    exact eqListWithin_append (by omega)

/-- **C99**: what comes after the first difference is not looked at, nor anything below rules with different names or with different numbers
of nodes, however deep. -/
theorem C99_first_difference {d : Nat} {n n' : Str} {ns ns' : List Node} :
    (n ≠ n' → eqWithin (d + 1) (.rule n ns) (.rule n' ns') = some false) ∧
    (ns.length ≠ ns'.length → eqWithin (d + 1) (.rule n ns) (.rule n' ns') = some false) ∧
    (∀ pre x y us vs, ns = pre ++ x :: us → ns' = pre ++ y :: vs → forestDepth pre ≤ d → eqWithin d x y = some false →
      eqWithin (d + 1) (.rule n ns) (.rule n' ns') = some false) := by
  refine ⟨fun h => by simp [eqWithin, h], fun h => ?_, ?_⟩
  · rw [eqWithin]
    split <;> simp [h]
  · rintro pre x y us vs rfl rfl hp h
    rw [eqWithin]
    split
    · split
      · rw [eqListWithin_append hp, eqListWithin, h]
      · rfl
    · rfl

/-! ### `{:?}` -/

namespace Debug

mutual
/-- how many values are inside of one another -/
def dbgDepth : Dbg → Nat
  | .str _ => 1
  | .chr _ => 1
  | .num _ => 1
  | .group _ _ es => entriesDepth es + 1
def entriesDepth : List Entry → Nat
  | [] => 0
  | e :: es => max (entryDepth e) (entriesDepth es)
def entryDepth : Entry → Nat
  | .plain d => dbgDepth d
  | .field _ d => dbgDepth d
  | .pair k d => max (dbgDepth k) (dbgDepth d)
end

mutual
theorem fmtWithin_eq (sty : Style) : ∀ d lay x, fmtWithin sty d lay x = if dbgDepth x ≤ d then some (fmt sty lay x) else none
  | 0, lay, x => by cases x <;> simp [fmtWithin, dbgDepth]
  | d + 1, lay, .str s => by simp [fmtWithin, dbgDepth, fmt]
  | d + 1, lay, .chr c => by simp [fmtWithin, dbgDepth, fmt]
  | d + 1, lay, .num n => by simp [fmtWithin, dbgDepth, fmt]
  | d + 1, lay, .group k name [] => by cases k <;> simp [fmtWithin, dbgDepth, entriesDepth, fmt]
  | d + 1, lay, .group k name (e :: es) => by
    have h1 := fmtEntryWithin_eq sty d lay e
    have h2 := fmtEntriesWithin_eq sty d lay es
    rw [fmtWithin, h1, h2, dbgDepth, entriesDepth, fmt]
    · by_cases h1 : entryDepth e ≤ d <;> by_cases h2 : entriesDepth es ≤ d <;> simp [h1, h2]
theorem fmtEntriesWithin_eq (sty : Style) : ∀ d lay es, fmtEntriesWithin sty d lay es =
    if entriesDepth es ≤ d then some (fmtEntries sty lay es) else none
  | d, lay, [] => by simp [fmtEntriesWithin, entriesDepth, fmtEntries]
  | d, lay, e :: es => by
    rw [fmtEntriesWithin, fmtEntryWithin_eq sty d lay e, fmtEntriesWithin_eq sty d lay es, entriesDepth, fmtEntries]
    by_cases h1 : entryDepth e ≤ d <;> by_cases h2 : entriesDepth es ≤ d <;> simp [h1, h2]
theorem fmtEntryWithin_eq (sty : Style) : ∀ d lay e, fmtEntryWithin sty d lay e =
    if entryDepth e ≤ d then some (fmtEntry sty lay e) else none
  | d, lay, .plain x => by rw [fmtEntryWithin, fmtWithin_eq sty d _ x, entryDepth, fmtEntry]
  | d, lay, .field n x => by
    rw [fmtEntryWithin, fmtWithin_eq sty d _ x, entryDepth, fmtEntry]
    by_cases h1 : dbgDepth x ≤ d <;> simp [h1]
  | d, lay, .pair k x => by
    rw [fmtEntryWithin, fmtWithin_eq sty d _ x, fmtWithin_eq sty d _ k, entryDepth, fmtEntry]
    by_cases h1 : dbgDepth x ≤ d <;> by_cases h2 : dbgDepth k ≤ d <;> simp [h1, h2]
end

theorem entriesDepth_plain : ∀ ds : List Dbg, entriesDepth (ds.map .plain) = (ds.map dbgDepth).foldr max 0
  | [] => rfl
  | d :: ds => by simp [entriesDepth, entryDepth, entriesDepth_plain ds]

theorem depth_call (name : Str) (ds : List Dbg) : dbgDepth (call name ds) = (ds.map dbgDepth).foldr max 0 + 1 := by
  rw [call, dbgDepth, entriesDepth_plain]

theorem depth_vec (ds : List Dbg) : dbgDepth (vec ds) = (ds.map dbgDepth).foldr max 0 + 1 := by
  rw [vec, dbgDepth, entriesDepth_plain]

mutual
theorem depth_node : ∀ t, dbgDepth (ofNode t) = printDepth t
  | .val s => by simp [ofNode, depth_call, dbgDepth, printDepth]
  | .eof => by simp [ofNode, depth_call, printDepth]
  | .rule n ns => by
    have := depth_nodes ns
    simp only [ofNode, depth_call, depth_vec, List.map_cons, List.map_nil, List.foldr, dbgDepth, printDepth, this]
    omega
theorem depth_nodes : ∀ ts, ((ofNodes ts).map dbgDepth).foldr max 0 = printDepths ts
  | [] => by simp [ofNodes, printDepths]
  | t :: ts => by simp [ofNodes, printDepths, depth_node t, depth_nodes ts]
end

end Debug

mutual
theorem printDepth_le : ∀ t, 3 * treeDepth t ≤ printDepth t + 2 ∧ printDepth t ≤ 3 * treeDepth t
  | .val _ => by simp [treeDepth, printDepth]
  | .eof => by simp [treeDepth, printDepth]
  | .rule _ ns => by
    have := printDepths_le ns
    rw [treeDepth, printDepth]
    omega
theorem printDepths_le : ∀ ts, 3 * forestDepth ts ≤ printDepths ts + 2 ∧ printDepths ts ≤ 3 * forestDepth ts
  | [] => by simp [forestDepth, printDepths]
  | t :: ts => by
    have := printDepth_le t
    have := printDepths_le ts
    rw [forestDepth, printDepths]
    omega
end

/-- **C99**: `{:?}` and `{:#?}` of a tree have as many calls in progress as its text is deep, three for each rule. -/
theorem C99_print (sty : Debug.Style) (lay : Debug.Layout) (d : Nat) (t : Node) :
    Debug.fmtWithin sty d lay (Debug.ofNode t) = if printDepth t ≤ d then some (Debug.fmt sty lay (Debug.ofNode t)) else none := by
  rw [Debug.fmtWithin_eq, Debug.depth_node]

/-- **C99**: which is three times the depth of the tree, or up to two less. -/
theorem C99_print_depth (t : Node) : 3 * treeDepth t - 2 ≤ printDepth t ∧ printDepth t ≤ 3 * treeDepth t := by
  have := printDepth_le t
  omega

/-! ### Dropping -/

mutual
theorem dropWithin_eq : ∀ d t, dropWithin d t = if treeDepth t ≤ d then some () else none
  | 0, t => by cases t <;> simp [dropWithin, treeDepth]
  | d + 1, .val s => by simp [dropWithin, treeDepth]
  | d + 1, .eof => by simp [dropWithin, treeDepth]
  | d + 1, .rule n ns => by simp [dropWithin, treeDepth, dropListWithin_eq d ns]
theorem dropListWithin_eq : ∀ d ts, dropListWithin d ts = if forestDepth ts ≤ d then some () else none
  | d, [] => by simp [dropListWithin, forestDepth]
  | d, t :: ts => by
    rw [dropListWithin, dropWithin_eq d t, dropListWithin_eq d ts, forestDepth]
    by_cases h1 : treeDepth t ≤ d <;> by_cases h2 : forestDepth ts ≤ d <;> simp [h1, h2]
end

/-- **C99**: dropping a tree has as many calls in progress as the tree is deep. -/
theorem C99_drop (d : Nat) (t : Node) : dropWithin d t = if treeDepth t ≤ d then some () else none := dropWithin_eq d t

/-- **C99**: so three times the depth is enough for all three; -/
theorem C99_enough {d : Nat} {t : Node} (h : 3 * treeDepth t ≤ d) (sty : Debug.Style) (lay : Debug.Layout) :
    (∀ t', eqWithin d t t' = some (Equal.node t t') ∧ eqWithin d t' t = some (Equal.node t' t)) ∧
    Debug.fmtWithin sty d lay (Debug.ofNode t) = some (Debug.fmt sty lay (Debug.ofNode t)) ∧ dropWithin d t = some () := by
  have := (C99_print_depth t).2
  exact ⟨fun t' => ⟨C99_compare (by omega), C99_compare (by omega)⟩, by rw [C99_print, if_pos (by omega)], by rw [C99_drop, if_pos (by omega)]⟩

/-- and less than the depth is not. -/
theorem C99_too_few {d : Nat} {t : Node} (h : d < treeDepth t) (sty : Debug.Style) (lay : Debug.Layout) :
    eqWithin d t t = none ∧ Debug.fmtWithin sty d lay (Debug.ofNode t) = none ∧ dropWithin d t = none := by
  have := (C99_print_depth t).1
  exact ⟨by rw [C99_equal, if_neg (by omega)], by rw [C99_print, if_neg (by omega)], by rw [C99_drop, if_neg (by omega)]⟩

/-- **C99**: for the trees of `parse`, calls in proportion to the text suffice, whatever the rules. -/
theorem C99_linear (R : SetOfRules) : ∃ K, ∀ s t d, parse s R = .ok t → K * (s.length + 1) ≤ d → ∀ sty lay,
    (∀ t', eqWithin d t t' = some (Equal.node t t') ∧ eqWithin d t' t = some (Equal.node t' t)) ∧
    Debug.fmtWithin sty d lay (Debug.ofNode t) = some (Debug.fmt sty lay (Debug.ofNode t)) ∧ dropWithin d t = some () := by
  refine ⟨3 * R.entries.length + 3, fun s t d h hd sty lay => C99_enough ?_ sty lay⟩
  have := C76_depth h
  rw [Nat.add_mul, Nat.mul_assoc] at hd
  omega

/-- **C99**: and no fixed number does. -/
theorem C99_deep (n : Nat) : ∃ t, parse (List.replicate n 'a') exNest = .ok t ∧ ∀ d ≤ n + 1, ∀ sty lay,
    eqWithin d t t = none ∧ Debug.fmtWithin sty d lay (Debug.ofNode t) = none ∧ dropWithin d t = none := by
  obtain ⟨t, h1, h2⟩ := C76_depth_attained n
  exact ⟨t, h1, fun d hd sty lay => C99_too_few (by omega) sty lay⟩

/-! ### Rules -/

mutual
theorem dropExprWithin_eq : ∀ d e, dropExprWithin d e = if exprDepth e ≤ d then some () else none
  | 0, e => by cases e <;> simp [dropExprWithin, exprDepth]
  | d + 1, .simple a => by simp [dropExprWithin, exprDepth]
  | d + 1, .ruleName n => by simp [dropExprWithin, exprDepth]
  | d + 1, .and es => by simp [dropExprWithin, exprDepth, dropExprsWithin_eq d es]
  | d + 1, .or es => by simp [dropExprWithin, exprDepth, dropExprsWithin_eq d es]
  | d + 1, .not e => by simp [dropExprWithin, exprDepth, dropExprWithin_eq d e]
  | d + 1, .rep e mn mx => by simp [dropExprWithin, exprDepth, dropExprWithin_eq d e]
theorem dropExprsWithin_eq : ∀ d es, dropExprsWithin d es = if exprDepths es ≤ d then some () else none
  | d, [] => by simp [dropExprsWithin, exprDepths]
  | d, e :: es => by
    rw [dropExprsWithin, dropExprWithin_eq d e, dropExprsWithin_eq d es, exprDepths]
    by_cases h1 : exprDepth e ≤ d <;> by_cases h2 : exprDepths es ≤ d <;> simp [h1, h2]
end

/-- **C99**: dropping a set of rules has one call more in progress than its deepest rule has expressions inside of one another. -/
theorem C99_drop_rules (d : Nat) (order : List (Str × Expr)) : dropRulesWithin d order = if rulesDepth order + 1 ≤ d then some () else none := by
  cases d with
  | zero => simp [dropRulesWithin]
  | succ d => rw [dropRulesWithin, dropExprsWithin_eq, rulesDepth]; simp

namespace Debug

theorem depth_atom (a : DP.Atom) : 1 ≤ dbgDepth (ofAtom a) ∧ dbgDepth (ofAtom a) ≤ 5 := by
  cases a with
  | mtch cs rs =>
    have : ∀ rs : List (Char × Char), ((rs.map fun r => call [] [.chr r.1, .chr r.2]).map dbgDepth).foldr max 0 ≤ 2 := by
      intro rs
      induction rs with
      | nil => simp
      | cons r rs ih => simp [depth_call, dbgDepth] at ih ⊢; exact ih
    have := this rs
    simp only [ofAtom, ofRanges, depth_call, depth_vec, List.map_cons, List.map_nil, List.foldr, dbgDepth]
    omega
  | _ => simp [ofAtom, depth_call, dbgDepth]

mutual
theorem depth_expr : ∀ e, exprDepth e < dbgDepth (ofExpr e) ∧ dbgDepth (ofExpr e) ≤ 3 * exprDepth e + 3
  | .simple a => by
    have := depth_atom a
    simp only [ofExpr, depth_call, List.map_cons, List.map_nil, List.foldr, exprDepth]
    omega
  | .ruleName n => by simp [ofExpr, depth_call, dbgDepth, exprDepth]
  | .and es => by
    have := depth_exprs es
    simp only [ofExpr, depth_call, depth_vec, List.map_cons, List.map_nil, List.foldr, exprDepth]
    omega
  | .or es => by
    have := depth_exprs es
    simp only [ofExpr, depth_call, depth_vec, List.map_cons, List.map_nil, List.foldr, exprDepth]
    omega
  | .not e => by
    have := depth_expr e
    simp only [ofExpr, depth_call, List.map_cons, List.map_nil, List.foldr, exprDepth]
    omega
  | .rep e mn mx => by
    have := depth_expr e
    have h2 : dbgDepth (opt (mx.map ofNRep)) ≤ 3 := by cases mx <;> simp [opt, ofNRep, depth_call, dbgDepth]
    have h3 : 1 ≤ exprDepth e := by cases e <;> simp [exprDepth]
    simp only [ofExpr, depth_call, List.map_cons, List.map_nil, List.foldr, exprDepth, struct, dbgDepth, entriesDepth, entryDepth, ofNRep]
    omega
theorem depth_exprs : ∀ es, exprDepths es ≤ ((ofExprs es).map dbgDepth).foldr max 0 ∧ ((ofExprs es).map dbgDepth).foldr max 0 ≤ 3 * exprDepths es + 3
  | [] => by simp [ofExprs, exprDepths]
  | e :: es => by
    have := depth_expr e
    have := depth_exprs es
    simp only [ofExprs, exprDepths, List.map_cons, List.foldr]
    omega
end

theorem depth_rules : ∀ l : List (Str × Expr), rulesDepth l ≤ entriesDepth (l.map fun r => .pair (.str r.1) (ofExpr r.2)) ∧
    entriesDepth (l.map fun r => .pair (.str r.1) (ofExpr r.2)) ≤ 3 * rulesDepth l + 3
  | [] => by simp [rulesDepth, exprDepths, entriesDepth]
  | r :: l => by
    have h1 := depth_rules l
    have h2 := depth_expr r.2
    simp only [rulesDepth, List.map_cons, exprDepths, entriesDepth, entryDepth, dbgDepth] at h1 ⊢
    omega

end Debug

/-- **C99**: `{:?}` of a set of rules: three times that and five more are enough. -/
theorem C99_print_rules {d : Nat} {order : List (Str × Expr)} (h : 3 * rulesDepth order + 5 ≤ d) (sty : Debug.Style) (lay : Debug.Layout) :
    Debug.fmtWithin sty d lay (Debug.ofRules order) = some (Debug.fmt sty lay (Debug.ofRules order)) := by
  have := (Debug.depth_rules order).2
  rw [Debug.fmtWithin_eq, if_pos]
  simp only [Debug.ofRules, Debug.depth_call, List.map_cons, List.map_nil, List.foldr, Debug.dbgDepth]
  omega

/-- and that and one more are not. -/
theorem C99_print_rules_too_few {d : Nat} {order : List (Str × Expr)} (h : d ≤ rulesDepth order + 1) (sty : Debug.Style) (lay : Debug.Layout) :
    Debug.fmtWithin sty d lay (Debug.ofRules order) = none := by
  have := (Debug.depth_rules order).1
  rw [Debug.fmtWithin_eq, if_neg]
  simp only [Debug.ofRules, Debug.depth_call, List.map_cons, List.map_nil, List.foldr, Debug.dbgDepth]
  omega

theorem exprDepths_le {es : List Expr} {k : Nat} : exprDepths es ≤ k ↔ ∀ e ∈ es, exprDepth e ≤ k := by
  induction es with
  | nil => simp [exprDepths]
  | cons x l ih => rw [exprDepths, Nat.max_le, ih]; simp

/-- **C99**: the order does not matter. -/
theorem C99_any_order {l l' : List (Str × Expr)} (h : l.Perm l') : rulesDepth l = rulesDepth l' := by
  have hp := h.map Prod.snd
  have a := (exprDepths_le (es := l.map Prod.snd) (k := rulesDepth l')).2 fun e he => exprDepths_le.1 (Nat.le_refl _) e (hp.mem_iff.1 he)
  have b := (exprDepths_le (es := l'.map Prod.snd) (k := rulesDepth l)).2 fun e he => exprDepths_le.1 (Nat.le_refl _) e (hp.mem_iff.2 he)
  exact Nat.le_antisymm a b

mutual
theorem exprDepth_le_size : ∀ e, exprDepth e ≤ exprSize e
  | .simple a => by cases a <;> (simp [exprDepth, exprSize, atomSize]; try omega)
  | .ruleName n => by simp [exprDepth, exprSize]
  | .and es => by have := exprDepths_le_size es; rw [exprDepth, exprSize]; omega
  | .or es => by have := exprDepths_le_size es; rw [exprDepth, exprSize]; omega
  | .not e => by have := exprDepth_le_size e; rw [exprDepth, exprSize]; omega
  | .rep e _ _ => by have := exprDepth_le_size e; rw [exprDepth, exprSize]; omega
theorem exprDepths_le_size : ∀ es, exprDepths es ≤ exprsSize es
  | [] => by simp [exprDepths]
  | e :: es => by
    have := exprDepth_le_size e
    have := exprDepths_le_size es
    rw [exprDepths, exprsSize]
    omega
end

/-- **C99**: for the rules of a PEG text, calls in proportion to the text suffice. -/
theorem C99_rules_of_text {s : Str} {R : SetOfRules} {order : List (Str × Expr)} {d : Nat} (h : rulesFromPeg s = .ok R)
    (ho : order.Perm R.entries) (hd : 6 * s.length + 5 ≤ d) (sty : Debug.Style) (lay : Debug.Layout) :
    Debug.fmtWithin sty d lay (Debug.ofRules order) = some (Debug.fmt sty lay (Debug.ofRules order)) ∧ dropRulesWithin d order = some () := by
  have h1 : rulesDepth order ≤ rulesSize R := by
    rw [C99_any_order ho, rulesDepth, exprDepths_le]
    intro e he
    obtain ⟨ne, hne, rfl⟩ := List.mem_map.1 he
    have h1 := exprDepth_le_size ne.2
    have h2 : 1 + ne.1.length + exprSize ne.2 ≤ rulesSize R := le_sum_of_mem_map (f := fun ne : Str × Expr => 1 + ne.1.length + exprSize ne.2) hne
    omega
  have h2 := C93_rules h
  exact ⟨C99_print_rules (by omega) sty lay, by rw [C99_drop_rules, if_pos (by omega)]⟩

/-- `!` so many times -/
def nots : Nat → Expr → Expr
  | 0, e => e
  | n + 1, e => .not (nots n e)

theorem nots_depth (n : Nat) (e : Expr) : exprDepth (nots n e) = n + exprDepth e := by
  induction n with
  | zero => simp [nots]
  | succ n ih => rw [nots, exprDepth, ih]; omega

theorem nots_peg (n : Nat) : PegExpr (nots n (.simple .dot)) := by
  induction n with
  | zero => exact .dot
  | succ n ih => exact .not ih

/-- **C99**: and no fixed number does. -/
theorem C99_deep_rules (n : Nat) : ∃ s R, rulesFromPeg s = .ok R ∧ ∀ order, order.Perm R.entries → ∀ d ≤ n, ∀ sty lay,
    Debug.fmtWithin sty d lay (Debug.ofRules order) = none ∧ dropRulesWithin d order = none := by
  refine ⟨_, _, C33_round_trip (rs := [(c!"main", nots n (.simple .dot))]) (by simp) (fun r hr => ?_), fun order ho d hd sty lay => ?_⟩
  · rw [List.mem_singleton.1 hr]
    exact ⟨validName_main, nots_peg n⟩
  · have h : rulesDepth order = n + 1 := by
      rw [C99_any_order ho]
      have : (SetOfRules.ofList [(c!"main", nots n (.simple .dot))]).entries = [(c!"main", nots n (.simple .dot))] := rfl
      rw [this]
      simp [rulesDepth, exprDepths, nots_depth, exprDepth]
    exact ⟨C99_print_rules_too_few (by omega) sty lay, by rw [C99_drop_rules, if_neg (by omega)]⟩

/-! ### Errors -/

/-- **C99**: dropping a `peg::Error` has as many calls in progress as there are errors inside of one another. -/
theorem C99_drop_error : ∀ d e, dropErrorWithin d e = if errorDepth e ≤ d then some () else none
  | 0, e => by cases e with
    | peg s i => cases i <;> simp [dropErrorWithin, errorDepth]
    | _ => simp [dropErrorWithin, errorDepth]
  | d + 1, .peg s none => by simp [dropErrorWithin, errorDepth]
  | d + 1, .peg s (some e) => by simp [dropErrorWithin, errorDepth, C99_drop_error d e]
  | d + 1, .parser e => by simp [dropErrorWithin, errorDepth]
  | d + 1, .ast e => by simp [dropErrorWithin, errorDepth]

namespace Debug

theorem depth_error (sty : Style) (e : Error) : dbgDepth (ofError sty e) ≤ 3 := by
  have h : (e.parsingRules.map (dbgDepth ∘ Dbg.str)).foldr max 0 ≤ 1 := by
    induction e.parsingRules with
    | nil => simp
    | cons x l ih => simp [dbgDepth] at ih ⊢; exact ih
  cases hp : e.priority <;>
    (simp [ofError, struct, dbgDepth, entriesDepth, entryDepth, ofPos, depth_vec, ofPrio, depth_call, hp]; exact h)

theorem depth_astError (e : AstError) : dbgDepth (ofAstError e) ≤ 3 := by
  cases h : e.ctx <;> simp [ofAstError, opt, depth_call, dbgDepth, h]

theorem displayWithin_eq (sty : Style) : ∀ d e, errorDepth e + 3 ≤ d → displayWithin sty d e = some (displayPeg sty e)
  | 0, e, h => by omega
  | d + 1, .peg s none, _ => rfl
  | d + 1, .peg s (some e), h => by
    rw [errorDepth] at h
    rw [displayWithin, displayWithin_eq sty d e (by omega)]
    rfl
  | d + 1, .parser e, h => by
    have := depth_error sty e
    rw [errorDepth] at h
    rw [displayWithin, fmtWithin_eq, if_pos (by omega)]
    rfl
  | d + 1, .ast e, h => by
    have := depth_astError e
    rw [errorDepth] at h
    rw [displayWithin, fmtWithin_eq, if_pos (by omega)]
    rfl

theorem displayWithin_none (sty : Style) : ∀ d e, d < errorDepth e → displayWithin sty d e = none
  | 0, e, _ => by rw [displayWithin]
  | d + 1, .peg s none, h => by rw [errorDepth] at h; omega
  | d + 1, .peg s (some e), h => by
    rw [errorDepth] at h
    rw [displayWithin, displayWithin_none sty d e (by omega)]
  | d + 1, .parser e, h => by rw [errorDepth] at h; omega
  | d + 1, .ast e, h => by rw [errorDepth] at h; omega

theorem depth_pegError (sty : Style) : ∀ e, errorDepth e < dbgDepth (ofPegError sty e) ∧ dbgDepth (ofPegError sty e) ≤ 3 * errorDepth e + 1
  | .peg s none => by simp [ofPegError, opt, depth_call, dbgDepth, errorDepth]
  | .peg s (some e) => by
    have := depth_pegError sty e
    simp only [ofPegError, opt, depth_call, dbgDepth, errorDepth, List.map_cons, List.map_nil, List.foldr]
    omega
  | .parser e => by
    have := depth_error sty e
    simp only [ofPegError, depth_call, errorDepth, List.map_cons, List.map_nil, List.foldr]
    have : 1 ≤ dbgDepth (ofError sty e) := by rw [ofError, struct, dbgDepth]; omega
    omega
  | .ast e => by
    have := depth_astError e
    simp only [ofPegError, depth_call, errorDepth, List.map_cons, List.map_nil, List.foldr]
    have : 1 ≤ dbgDepth (ofAstError e) := by rw [ofAstError, call, dbgDepth]; omega
    omega

end Debug

/-- **C99**: printing it with `{}` needs up to three more, with `{:?}` up to three for each and one more, -/
theorem C99_print_error {d : Nat} {e : PegError} (sty : Debug.Style) (lay : Debug.Layout) :
    (errorDepth e + 3 ≤ d → Debug.displayWithin sty d e = some (Debug.displayPeg sty e)) ∧
    (3 * errorDepth e + 1 ≤ d → Debug.fmtWithin sty d lay (Debug.ofPegError sty e) = some (Debug.fmt sty lay (Debug.ofPegError sty e))) := by
  refine ⟨Debug.displayWithin_eq sty d e, fun h => ?_⟩
  have := (Debug.depth_pegError sty e).2
  rw [Debug.fmtWithin_eq, if_pos (by omega)]

/-- and never less than their number. -/
theorem C99_print_error_too_few {d : Nat} {e : PegError} (h : d < errorDepth e) (sty : Debug.Style) (lay : Debug.Layout) :
    Debug.displayWithin sty d e = none ∧ Debug.fmtWithin sty d lay (Debug.ofPegError sty e) = none := by
  refine ⟨Debug.displayWithin_none sty d e h, ?_⟩
  have := (Debug.depth_pegError sty e).1
  rw [Debug.fmtWithin_eq, if_neg (by omega)]

/-- **C99**: errors of `parse` need three calls, whatever the text and the rules. -/
theorem C99_parser_error (sty : Debug.Style) (lay : Debug.Layout) (e : Error) :
    Debug.fmtWithin sty 3 lay (Debug.ofError sty e) = some (Debug.fmt sty lay (Debug.ofError sty e)) := by
  have := Debug.depth_error sty e
  rw [Debug.fmtWithin_eq, if_pos this]

/-! ### Errors of PEG texts -/

open Spec.Syntax

/-- `within` -/
theorem path_within {ds : List Str} {o : Option Complaint} {k : Nat} (h : ∀ p, o = some p → p.path.length + ds.length ≤ k) :
    ∀ p, within ds o = some p → p.path.length ≤ k := by
  intro p hp
  cases o with
  | none => cases hp
  | some q =>
    cases hp
    have := h q rfl
    simp [Complaint.within]
    omega

theorem path_first {o o' : Option Complaint} {k : Nat} (h : ∀ p, o = some p → p.path.length ≤ k) (h' : ∀ p, o' = some p → p.path.length ≤ k) :
    ∀ p, first o o' = some p → p.path.length ≤ k := by
  intro p hp
  cases o with
  | none => exact h' p hp
  | some q => cases hp; exact h _ rfl

theorem lit_path (l : Lit) : ∀ p, l.fault = some p → p.path.length ≤ 2 := by
  intro p hp
  unfold Lit.fault at hp
  split at hp
  · cases hp; simp
  · cases hp

theorem lit_length (l : Lit) : 2 ≤ l.str.length := by cases l <;> simp [Lit.str]

theorem err_length (g1 g2 g3 : Gaps) (l : Lit) : 9 ≤ (errStr g1 g2 l g3).length := by
  have := lit_length l
  simp [errStr]
  omega

mutual
theorem atom_path : ∀ (a : Syntax.Atom), a.OK → ∀ p, a.fault = some p → p.path.length + 4 ≤ 5 * a.str.length
  | .lit l, _, p, h => by
    rw [Atom.fault] at h
    have h1 := path_within (k := 6) (fun q hq => by have := lit_path l q hq; simp; omega) p h
    have := lit_length l
    rw [Atom.str]
    omega
  | .par g1 e g2, hok, p, h => by
    rw [Atom.fault] at h
    rw [Atom.OK] at hok
    have h1 := path_within (k := 5 * e.str.length + 4) (fun q hq => by have := alt_path e hok.2.1 q hq; simp; omega) p h
    simp [Atom.str]
    omega
  | .cls _ _, _, p, h => by rw [Atom.fault] at h; cases h
  | .ref _, _, p, h => by rw [Atom.fault] at h; cases h
  | .dot, _, p, h => by rw [Atom.fault] at h; cases h
theorem item_path : ∀ (i : Syntax.Item), i.OK → ∀ p, i.fault = some p → p.path.length + 3 ≤ 5 * i.str.length
  | .plain a, hok, p, h => by
    rw [Item.OK] at hok
    rw [Item.fault] at h
    have h1 := path_within (k := 5 * a.str.length - 3) (fun q hq => by have := atom_path a hok q hq; simp; omega) p h
    have h2 : 4 ≤ 5 * a.str.length := by
      cases hf : a.fault with
      | none => rw [hf] at h; cases h
      | some q => have := atom_path a hok q hf; omega
    simp [Item.str]
    omega
  | .star a, hok, p, h => by
    rw [Item.OK] at hok
    rw [Item.fault] at h
    have h1 := path_within (k := 5 * a.str.length - 3) (fun q hq => by have := atom_path a hok q hq; simp; omega) p h
    simp [Item.str]
    omega
  | .plus a, hok, p, h => by
    rw [Item.OK] at hok
    rw [Item.fault] at h
    have h1 := path_within (k := 5 * a.str.length - 3) (fun q hq => by have := atom_path a hok q hq; simp; omega) p h
    simp [Item.str]
    omega
  | .opt a, hok, p, h => by
    rw [Item.OK] at hok
    rw [Item.fault] at h
    have h1 := path_within (k := 5 * a.str.length - 3) (fun q hq => by have := atom_path a hok q hq; simp; omega) p h
    simp [Item.str]
    omega
  | .not a, hok, p, h => by
    rw [Item.OK] at hok
    rw [Item.fault] at h
    have h1 := path_within (k := 5 * a.str.length - 3) (fun q hq => by have := atom_path a hok q hq; simp; omega) p h
    simp [Item.str]
    omega
theorem seq_path : ∀ (s : Syntax.Seq), s.OK → ∀ p, s.fault = some p → p.path.length + 2 ≤ 5 * s.str.length
  | .err g1 g2 l g3, _, p, h => by
    rw [Seq.fault] at h
    have h1 := path_within (k := 4) (fun q hq => by have := lit_path l q hq; simp; omega) p h
    have := err_length g1 g2 g3 l
    rw [Seq.str]
    omega
  | .item i t, hok, p, h => by
    rw [Seq.OK] at hok
    rw [Seq.fault] at h
    obtain ⟨q, hq, rfl⟩ : ∃ q, first i.fault t.fault = some q ∧ p = q.within [c!"consuming and"] := by
      cases hf : first i.fault t.fault with
      | none => rw [hf] at h; cases h
      | some q => rw [hf] at h; cases h; exact ⟨q, rfl, rfl⟩
    simp [Complaint.within, Seq.str]
    cases hf : i.fault with
    | some q' =>
      rw [hf] at hq
      cases hq
      have := item_path i hok.1 _ hf
      omega
    | none =>
      rw [hf] at hq
      have := tail_path t hok.2.1 q hq
      omega
theorem tail_path : ∀ (t : Syntax.Tail), t.OK → ∀ p, t.fault = some p → p.path.length + 5 ≤ 5 * t.str.length
  | .nil, _, p, h => by rw [Tail.fault] at h; cases h
  | .item g i t, hok, p, h => by
    rw [Tail.OK] at hok
    rw [Tail.fault] at h
    have := sepOK_length hok.1
    obtain ⟨q, hq, rfl⟩ : ∃ q, first i.fault t.fault = some q ∧ p = q.within [c!"consuming and"] := by
      cases hf : first i.fault t.fault with
      | none => rw [hf] at h; cases h
      | some q => rw [hf] at h; cases h; exact ⟨q, rfl, rfl⟩
    simp [Complaint.within, Tail.str]
    cases hf : i.fault with
    | some q' =>
      rw [hf] at hq
      cases hq
      have := item_path i hok.2.1 _ hf
      omega
    | none =>
      rw [hf] at hq
      have := tail_path t hok.2.2.1 q hq
      omega
  | .err g g1 g2 l g3 t, hok, p, h => by
    have h0 : p.path.length ≤ 4 := by
      have h1 := path_within (ds := [c!"consuming and", c!"consuming error"]) (o := l.fault) (k := 4)
        (fun q hq => by have := lit_path l q hq; simp; omega)
      cases t with
      | nil => rw [Tail.fault] at h; exact h1 p h
      | _ =>
        rw [Tail.fault] at h
        · exact path_first h1 (fun q hq => by cases hq; simp) p h
        · simp
    have := err_length g1 g2 g3 l
    simp [Tail.str]
    omega
theorem alt_path : ∀ (a : Syntax.Alt), a.OK → ∀ p, a.fault = some p → p.path.length + 1 ≤ 5 * a.str.length
  | .one s, hok, p, h => by
    rw [Alt.OK] at hok
    rw [Alt.fault] at h
    obtain ⟨q, hq, rfl⟩ : ∃ q, s.fault = some q ∧ p = q.within [c!"consuming or"] := by
      cases hf : s.fault with
      | none => rw [hf] at h; cases h
      | some q => rw [hf] at h; cases h; exact ⟨q, rfl, rfl⟩
    have := seq_path s hok q hq
    simp [Complaint.within, Alt.str]
    omega
  | .cons s g1 g2 a, hok, p, h => by
    rw [Alt.OK] at hok
    rw [Alt.fault] at h
    obtain ⟨q, hq, rfl⟩ : ∃ q, first s.fault a.fault = some q ∧ p = q.within [c!"consuming or"] := by
      cases hf : first s.fault a.fault with
      | none => rw [hf] at h; cases h
      | some q => rw [hf] at h; cases h; exact ⟨q, rfl, rfl⟩
    simp [Complaint.within, Alt.str]
    cases hf : s.fault with
    | some q' =>
      rw [hf] at hq
      cases hq
      have := seq_path s hok.1 _ hf
      omega
    | none =>
      rw [hf] at hq
      have := alt_path a hok.2.2.2 q hq
      omega
end

mutual
theorem def_path : ∀ (d : Syntax.Def), d.OK → ∀ p, d.fault = some p → p.path.length ≤ 5 * d.str.length
  | .rule n g1 g2 e t, hok, p, h => by
    rw [Def.OK] at hok
    rw [Def.fault] at h
    have h1 := path_within (k := 5 * e.str.length + 2) (fun q hq => by have := alt_path e hok.2.2.2.1 q hq; simp; omega) p h
    simp [Def.str]
    omega
  | .module n g1 g2 ds t, hok, p, h => by
    rw [Def.OK] at hok
    rw [Def.fault] at h
    have h1 := path_within (k := 5 * ds.str.length + 2) (fun q hq => by have := defs_path ds hok.2.2.2.1 q hq; simp; omega) p h
    simp [Def.str]
    omega
theorem defs_path : ∀ (ds : Syntax.Defs), ds.OK → ∀ p, ds.fault = some p → p.path.length ≤ 5 * ds.str.length
  | .one d, hok, p, h => by
    rw [Defs.OK] at hok
    rw [Defs.fault] at h
    exact def_path d hok p h
  | .cons d ds, hok, p, h => by
    rw [Defs.OK] at hok
    rw [Defs.fault] at h
    refine path_first (fun q hq => ?_) (fun q hq => ?_) p h
    · have := def_path d hok.1 q hq
      simp [Defs.str]
      omega
    · have := defs_path ds hok.2 q hq
      simp [Defs.str]
      omega
end

theorem complaint_depth (p : Complaint) : errorDepth p.error = p.path.length + 1 := by
  obtain ⟨path, cause⟩ := p
  induction path with
  | nil => rfl
  | cons d path ih =>
    show errorDepth (.peg d (some (Complaint.error ⟨path, cause⟩))) = _
    rw [errorDepth, ih]
    rfl

/-- **C99**: the errors of `rules_from_peg` are nested at most in proportion to the text, -/
theorem C99_errors_of_text {s : Str} {e : PegError} (h : rulesFromPeg s = .err e) : errorDepth e ≤ 5 * s.length + 3 := by
  rcases (C48_errors s e).1 h with ⟨pe, rfl, _⟩ | ⟨_, d, hok, rfl, p, hp, rfl⟩
  · rw [errorDepth]
    omega
  · have h1 := path_within (k := 5 * d.defs.str.length + 2) (fun q hq => by have := defs_path d.defs hok.2 q hq; simp; omega) p hp
    rw [complaint_depth, Doc.str, List.length_append]
    omega

/-- `''` in so many parentheses -/
def parens : Nat → Syntax.Atom
  | 0 => .lit (.single [])
  | n + 1 => .par [] (.one (.item (.plain (parens n)) .nil)) []

theorem parens_ok (n : Nat) : (parens n).OK := by
  induction n with
  | zero => simp [parens, Atom.OK, Lit.OK]
  | succ n ih =>
    rw [parens, Atom.OK, Alt.OK, Seq.OK, Item.OK, Tail.OK]
    exact ⟨trivial, ⟨ih, trivial, by cases n <;> simp [parens, LooksLikeError]⟩, trivial⟩

theorem parens_str (n : Nat) : (parens n).str = List.replicate n '(' ++ c!"''" ++ List.replicate n ')' := by
  induction n with
  | zero => rfl
  | succ n ih =>
    rw [parens, Atom.str, Alt.str, Seq.str, Item.str, Tail.str, ih]
    simp [gapsStr, List.replicate_succ]
    exact (List.replicate_succ' (n := n) (a := ')')) ▸ rfl

theorem parens_fault (n : Nat) : ∃ p, (parens n).fault = some p ∧ n ≤ p.path.length := by
  induction n with
  | zero => exact ⟨_, rfl, by omega⟩
  | succ n ih =>
    obtain ⟨p, h1, h2⟩ := ih
    rw [parens, Atom.fault, Alt.fault, Seq.fault, Item.fault, h1]
    refine ⟨_, rfl, ?_⟩
    simp [Complaint.within]
    omega

/-- **C99**: and nested as deep as the parentheses around an empty literal. -/
theorem C99_deep_errors (n : Nat) : ∃ e, rulesFromPeg (c!"main = " ++ (List.replicate n '(' ++ c!"''" ++ List.replicate n ')') ++ c!"\n") = .err e ∧
    n < errorDepth e := by
  let d : Doc := ⟨[], .one (.rule c!"main" [.sp] [.sp] (.one (.item (.plain (parens n)) .nil)) ⟨[], .lf, []⟩)⟩
  have hs : d.str = c!"main = " ++ (List.replicate n '(' ++ c!"''" ++ List.replicate n ')') ++ c!"\n" := by
    rw [← parens_str]
    simp [d, Doc.str, Defs.str, Def.str, Alt.str, Seq.str, Item.str, Tail.str, gapsStr, Gap.str, Term.gaps, Eol.str]
  have hok : d.OK := by
    refine ⟨trivial, ?_⟩
    rw [Defs.OK, Def.OK, Alt.OK, Seq.OK, Item.OK, Tail.OK]
    exact ⟨validName_main, trivial, trivial, ⟨parens_ok n, trivial, by cases n <;> simp [parens, LooksLikeError]⟩, trivial, fun g hg => by cases hg⟩
  have ha : Ascii d.str := by
    rw [hs]
    refine ascii_append (ascii_append (by decide) (ascii_append (ascii_append ?_ (by decide)) ?_)) (by decide)
    all_goals
      intro c hc
      rw [List.eq_of_mem_replicate hc]
      decide
  obtain ⟨p, h1, h2⟩ := parens_fault n
  have hf : d.fault = some ((p.within [c!"consuming rep_or_neg"]).within [c!"consuming and"] |>.within [c!"consuming or"] |>.within
      [c!"consuming rule", c!"consuming expr", c!"or:"] |>.within [c!"consuming main", c!"consuming grammar"]) := by
    rw [Doc.fault, Defs.fault, Def.fault, Alt.fault, Seq.fault, Item.fault, h1]
    rfl
  rw [← hs]
  refine ⟨_, C48_complaint hok ha hf, ?_⟩
  rw [complaint_depth]
  simp [Complaint.within]
  omega

/-! ### Concretely -/

/-- a rule in a rule; without the inner rule -/
example : treeDepth (.rule c!"main" [.rule c!"x" [.val c!"1"], .val c!"2"]) = 3 ∧
    printDepth (.rule c!"main" [.rule c!"x" [.val c!"1"], .val c!"2"]) = 8 ∧
    eqWithin 2 (.rule c!"main" [.rule c!"x" [.val c!"1"], .val c!"2"]) (.rule c!"main" [.rule c!"x" [.val c!"1"], .val c!"2"]) = none ∧
    eqWithin 1 (.rule c!"main" [.rule c!"x" [.val c!"1"], .val c!"2"]) (.rule c!"main" [.val c!"2"]) = some false ∧
    dropWithin 2 (.rule c!"main" [.rule c!"x" [.val c!"1"], .val c!"2"]) = none ∧
    dropWithin 3 (.rule c!"main" [.rule c!"x" [.val c!"1"], .val c!"2"]) = some () := by decide

/-- `main = !!. / "a"`, and an error in an error -/
example : rulesDepth [(c!"main", .or [.not (.not (.simple .dot)), .simple (.literal c!"a")])] = 4 ∧
    dropRulesWithin 4 [(c!"main", .or [.not (.not (.simple .dot)), .simple (.literal c!"a")])] = none ∧
    dropRulesWithin 5 [(c!"main", .or [.not (.not (.simple .dot)), .simple (.literal c!"a")])] = some () ∧
    dropErrorWithin 1 (.peg c!"x" (some (.peg c!"y" none))) = none ∧ dropErrorWithin 2 (.peg c!"x" (some (.peg c!"y" none))) = some () := by
  refine ⟨?_, ?_, ?_, rfl, rfl⟩ <;> simp [rulesDepth, exprDepths, exprDepth, dropRulesWithin, dropExprsWithin, dropExprWithin]

end DP
