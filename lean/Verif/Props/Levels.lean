/-
C98: expressions with any number of levels of precedence (src/parser/expression/mod.rs:231-330, src/lib.rs:486-521).
-/
import Verif.Spec.Levels
import Verif.Props.Words
import Verif.Props.Quote
import Verif.Props.Requote

namespace DP
open Spec

/-- the accepted texts: words, texts between parentheses, and chains of an operator -/
inductive LTree
  | word (w : Str)
  | par (t : LTree)
  | chain (t : LTree) (ts : List LTree)

section
variable (cs : Str) (rs : List (Char × Char)) (a : Str) (lv : List (Str × Char))

mutual
/-- at the level of the operators that are left -/
def LTree.OK : List (Str × Char) → LTree → Prop
  | [], .word w => w ≠ [] ∧ ∀ c ∈ w, InClass cs rs c
  | [], .par t => t.OK lv
  | _ :: ls, .chain t ts => t.OK ls ∧ ltreesOK ls ts
  | _, _ => False
def ltreesOK (ls : List (Str × Char)) : List LTree → Prop
  | [] => True
  | t :: ts => t.OK ls ∧ ltreesOK ls ts
end

mutual
def LTree.str : List (Str × Char) → LTree → Str
  | _, .word w => w
  | _, .par t => '(' :: t.str lv ++ [')']
  | [], .chain _ _ => []
  | (_, o) :: ls, .chain t ts => t.str ls ++ ltreesStr o ls ts
def ltreesStr (o : Char) (ls : List (Str × Char)) : List LTree → Str
  | [] => []
  | t :: ts => o :: t.str ls ++ ltreesStr o ls ts
end

mutual
/-- the tree that `parse` returns for it -/
def LTree.node : List (Str × Char) → LTree → Node
  | _, .word w => .rule a (w.map fun c => .val [c])
  | _, .par t => .rule a [.val ['('], t.node lv, .val [')']]
  | [], .chain _ _ => .eof
  | (n, o) :: ls, .chain t ts => .rule n (t.node ls :: ltreesNodes o ls ts)
def ltreesNodes (o : Char) (ls : List (Str × Char)) : List LTree → List Node
  | [] => []
  | t :: ts => .val [o] :: t.node ls :: ltreesNodes o ls ts
end

/-- the rules, whatever the others are -/
structure LevelG (G : Str → Option Expr) : Prop where
  atom : G a = some (.or [.rep (letterExpr cs rs) 1 none, .and [.simple (.literal ['(']), .ruleName (nextName a lv), .simple (.literal [')'])]])
  level : ∀ n o ls, (n, o) :: ls <:+ lv →
    G n = some (.and [.ruleName (nextName a ls), .rep (.and [.simple (.literal [o]), .ruleName (nextName a ls)]) 0 none])

/-- what the characters must be like -/
structure LevelC : Prop where
  distinct : (lv.map Prod.snd).Nodup
  outside : ∀ l ∈ lv, ¬ InClass cs rs l.2
  close : ∀ l ∈ lv, l.2 ≠ ')'
  openC : ¬ InClass cs rs '('
  closeC : ¬ InClass cs rs ')'

end

section
variable {cs : Str} {rs : List (Char × Char)} {a : Str} {lv : List (Str × Char)} {G : Str → Option Expr}

theorem suffix_tail {x : Str × Char} {ls : List (Str × Char)} (h : x :: ls <:+ lv) : ls <:+ lv :=
  (List.suffix_cons x ls).trans h

/-- what may follow: no letter, and no operator that binds as tight -/
def Follows (cs : Str) (rs : List (Char × Char)) (ls : List (Str × Char)) (r : Str) : Prop :=
  ∀ c ∈ r.head?, ¬ InClass cs rs c ∧ ∀ l ∈ ls, l.2 ≠ c

mutual
/-- a text of a level is read -/
theorem level_peg (hG : LevelG cs rs a lv G) (hC : LevelC cs rs lv) : ∀ (t : LTree) (ls), ls <:+ lv → t.OK cs rs lv ls → ∀ r, Follows cs rs ls r →
    Peg G (.ruleName (nextName a ls)) (t.str lv ls ++ r) (.ok r [t.node a lv ls])
  | .word w, [], _, hok, r, hr => by
    rw [LTree.OK] at hok
    rw [LTree.str, LTree.node]
    exact .call_ok hG.atom (.or_ok (id_peg hok.1 hok.2 fun c hc => (hr c hc).1))
  | .word w, _ :: _, _, hok, r, hr => by simp [LTree.OK] at hok
  | .par t, [], _, hok, r, hr => by
    rw [LTree.OK] at hok
    have h1 := level_peg hG hC t lv (List.suffix_refl _) hok (')' :: r) (fun c hc => by
      cases hc
      exact ⟨hC.closeC, hC.close⟩)
    have h2 : Peg G (.rep (letterExpr cs rs) 1 none) ('(' :: (t.str lv lv ++ ')' :: r)) .fail :=
      .rep_few (by simp) (by omega) (.class_fail _ _ _ _ hC.openC)
    have h3 := Peg.call_ok hG.atom (.or_next h2 (.or_ok (.and_ok (.lit_ok ['('] _) (.and_ok h1 (.and_ok (.lit_ok [')'] r) (.and_nil _))))))
    rw [LTree.str, LTree.node]
    simpa [nextName] using h3
  | .par t, _ :: _, _, hok, r, hr => by simp [LTree.OK] at hok
  | .chain t ts, [], _, hok, r, hr => by simp [LTree.OK] at hok
  | .chain t ts, (n, o) :: ls, hs, hok, r, hr => by
    rw [LTree.OK] at hok
    have hd := (List.Sublist.map Prod.snd hs.sublist).nodup hC.distinct
    rw [List.map_cons, List.nodup_cons] at hd
    have ho : ∀ s, Follows cs rs ls (o :: s) := fun s c hc => by
      cases hc
      refine ⟨hC.outside (n, o) (hs.subset List.mem_cons_self), fun l hl he => hd.1 (List.mem_map.2 ⟨l, hl, he⟩)⟩
    have hr' : Follows cs rs ls r := fun c hc => ⟨(hr c hc).1, fun l hl => (hr c hc).2 l (List.mem_cons_of_mem _ hl)⟩
    have h2 := levels_peg hG hC ts n o ls hs hok.2 r hr' (fun c hc => (hr c hc).2 (n, o) List.mem_cons_self) ho
    have h1 := level_peg hG hC t ls (suffix_tail hs) hok.1 (ltreesStr lv o ls ts ++ r) (by
      cases ts with
      | nil => rw [ltreesStr]; exact hr'
      | cons u us => rw [ltreesStr]; exact ho _)
    have h3 := Peg.call_ok (hG.level n o ls hs) (.and_ok h1 (.and_ok h2 (.and_nil _)))
    rw [LTree.str, LTree.node]
    simpa [nextName] using h3
theorem levels_peg (hG : LevelG cs rs a lv G) (hC : LevelC cs rs lv) : ∀ (ts : List LTree) (n : Str) (o : Char) (ls), (n, o) :: ls <:+ lv →
    ltreesOK cs rs lv ls ts → ∀ r, Follows cs rs ls r → (∀ c ∈ r.head?, o ≠ c) → (∀ s, Follows cs rs ls (o :: s)) →
    Peg G (.rep (.and [.simple (.literal [o]), .ruleName (nextName a ls)]) 0 none) (ltreesStr lv o ls ts ++ r) (.ok r (ltreesNodes a lv o ls ts))
  | [], n, o, ls, _, _, r, _, hr, _ => by
    rw [ltreesStr, ltreesNodes]
    refine .rep_stop (by simp) (.and_fail ?_)
    cases r with
    | nil => exact char_misses_nil
    | cons c r => exact char_misses (hr c rfl).symm
  | t :: ts, n, o, ls, hs, hok, r, hr, hn, ho => by
    rw [ltreesOK] at hok
    have h2 := levels_peg hG hC ts n o ls hs hok.2 r hr hn ho
    have h1 := level_peg hG hC t ls (suffix_tail hs) hok.1 (ltreesStr lv o ls ts ++ r) (by
      cases ts with
      | nil => rw [ltreesStr]; exact hr
      | cons u us => rw [ltreesStr]; exact ho _)
    have h3 := Peg.rep_more (mn := 0) (mx := none) (by simp) (.and_ok (.lit_ok [o] _) (.and_ok h1 (.and_nil _))) h2
    rw [ltreesStr, ltreesNodes]
    simpa using h3
end

theorem run_inv : ∀ (k : Nat) {s r : Str} {ns}, s.length ≤ k → Peg G (.rep (letterExpr cs rs) 0 none) s (.ok r ns) →
    ∃ w, s = w ++ r ∧ (∀ c ∈ w, InClass cs rs c) ∧ ns = w.map fun c => .val [c] := by
  intro k
  induction k with
  | zero =>
    intro s r ns hk h
    rw [List.length_eq_zero_iff.1 (Nat.le_zero.1 hk)] at h ⊢
    cases h with
    | rep_stop => exact ⟨[], rfl, by simp, rfl⟩
    | rep_more _ h1 => cases h1
  | succ k ih =>
    intro s r ns hk h
    cases h with
    | rep_stop => exact ⟨[], rfl, by simp, rfl⟩
    | rep_more _ h1 h2 =>
      cases h1 with
      | class_ok _ _ c s hc =>
        obtain ⟨w, rfl, h3, rfl⟩ := ih (by simpa using hk) h2
        exact ⟨c :: w, rfl, by simpa using ⟨hc, h3⟩, rfl⟩

theorem id_inv {s r : Str} {ns} (h : Peg G (.rep (letterExpr cs rs) 1 none) s (.ok r ns)) :
    ∃ w, w ≠ [] ∧ s = w ++ r ∧ (∀ c ∈ w, InClass cs rs c) ∧ ns = w.map fun c => .val [c] := by
  cases h with
  | rep_more _ h1 h2 =>
    cases h1 with
    | class_ok _ _ c s hc =>
      obtain ⟨w, rfl, h3, rfl⟩ := run_inv _ (Nat.le_refl _) h2
      exact ⟨c :: w, by simp, rfl, by simpa using ⟨hc, h3⟩, rfl⟩

theorem lit_text {l s r : Str} {ns} (h : Peg G (.simple (.literal l)) s (.ok r ns)) : s = l ++ r := by
  cases h
  rfl

/-- the further operands of a chain -/
theorem levels_inv (o : Char) (ls : List (Str × Char)) {k : Nat}
    (H : ∀ s r ns, s.length ≤ k → Peg G (.ruleName (nextName a ls)) s (.ok r ns) →
      ∃ t : LTree, t.OK cs rs lv ls ∧ s = t.str lv ls ++ r ∧ ns = [t.node a lv ls]) :
    ∀ (j : Nat), j ≤ k → ∀ s r ns, s.length ≤ j → Peg G (.rep (.and [.simple (.literal [o]), .ruleName (nextName a ls)]) 0 none) s (.ok r ns) →
      ∃ ts, ltreesOK cs rs lv ls ts ∧ s = ltreesStr lv o ls ts ++ r ∧ ns = ltreesNodes a lv o ls ts := by
  intro j
  induction j with
  | zero =>
    intro _ s r ns hk h
    rw [List.length_eq_zero_iff.1 (Nat.le_zero.1 hk)] at h ⊢
    cases h with
    | rep_stop => exact ⟨[], by rw [ltreesOK]; trivial, by rw [ltreesStr]; rfl, by rw [ltreesNodes]⟩
    | rep_more _ h1 h2 =>
      cases h1 with
      | and_ok h3 h4 =>
        cases (lit_text h3)
  | succ j ih =>
    intro hj s r ns hk h
    cases h with
    | rep_stop => exact ⟨[], by rw [ltreesOK]; trivial, by rw [ltreesStr]; rfl, by rw [ltreesNodes]⟩
    | rep_more _ h1 h2 =>
      cases h1 with
      | and_ok h3 h4 =>
        cases h3 with
        | lit_ok _ s =>
          cases h4 with
          | and_ok h5 h6 =>
            cases h6
            simp only [List.length_append, List.length_cons, List.length_nil] at hk
            obtain ⟨t, ht1, rfl, rfl⟩ := H _ _ _ (by omega) h5
            simp only [List.length_append] at hk
            obtain ⟨ts, hts1, rfl, rfl⟩ := ih (by omega) _ _ _ (by omega) h2
            refine ⟨t :: ts, by rw [ltreesOK]; exact ⟨ht1, hts1⟩, by rw [ltreesStr]; simp, by rw [ltreesNodes]; simp⟩

/-- nothing else is read -/
theorem level_inv (hG : LevelG cs rs a lv G) : ∀ (k : Nat) (ls), ls <:+ lv → ∀ s r ns, s.length ≤ k →
    Peg G (.ruleName (nextName a ls)) s (.ok r ns) → ∃ t : LTree, t.OK cs rs lv ls ∧ s = t.str lv ls ++ r ∧ ns = [t.node a lv ls] := by
  intro k
  induction k using Nat.strongRecOn with
  | ind k ih =>
    intro ls
    induction ls with
    | nil =>
      intro _ s r ns hk h
      cases h with
      | call_ok he h =>
        rw [nextName, hG.atom] at he
        cases he
        cases h with
        | or_ok h =>
          obtain ⟨w, h1, rfl, h2, rfl⟩ := id_inv h
          exact ⟨.word w, by rw [LTree.OK]; exact ⟨h1, h2⟩, by rw [LTree.str], by rw [LTree.node]; rfl⟩
        | or_next _ h =>
          cases h with
          | or_ok h =>
            cases h with
            | and_ok h1 h =>
              cases h1 with
              | lit_ok _ s =>
                cases h with
                | and_ok h2 h =>
                  simp only [List.length_append, List.length_cons, List.length_nil] at hk
                  obtain ⟨t, ht, rfl, rfl⟩ := ih (k - 1) (by omega) lv (List.suffix_refl _) _ _ _ (by omega) h2
                  cases h with
                  | and_ok h3 h =>
                    cases h3 with
                    | lit_ok _ s =>
                      cases h
                      exact ⟨.par t, by rw [LTree.OK]; exact ht, by rw [LTree.str]; simp, by rw [LTree.node]; simp [nextName]⟩
          | or_next _ h => cases h
    | cons x ls ihl =>
      obtain ⟨n, o⟩ := x
      intro hs s r ns hk h
      cases h with
      | call_ok he h =>
        rw [nextName, hG.level n o ls hs] at he
        cases he
        cases h with
        | and_ok h1 h =>
          cases h with
          | and_ok h2 h =>
            cases h
            obtain ⟨t, ht, rfl, rfl⟩ := ihl (suffix_tail hs) _ _ _ hk h1
            simp only [List.length_append] at hk
            obtain ⟨ts, hts, rfl, rfl⟩ := levels_inv o ls (ihl (suffix_tail hs)) k (Nat.le_refl _) _ _ _ (by omega) h2
            exact ⟨.chain t ts, by rw [LTree.OK]; exact ⟨ht, hts⟩, by rw [LTree.str]; simp, by rw [LTree.node]; simp [nextName]⟩

end

theorem levelEntries_names (a : Str) : ∀ ls : List (Str × Char), (levelEntries a ls).map Prod.fst = ls.map Prod.fst
  | [] => rfl
  | (n, o) :: ls => by rw [levelEntries, List.map_cons, levelEntries_names a ls, List.map_cons]

theorem levelEntries_mem (a : Str) {n : Str} {o : Char} {ls : List (Str × Char)} : ∀ {lv : List (Str × Char)}, (n, o) :: ls <:+ lv →
    (n, Expr.and [.ruleName (nextName a ls), .rep (.and [.simple (.literal [o]), .ruleName (nextName a ls)]) 0 none]) ∈ levelEntries a lv
  | [], h => by simp at h
  | (m, p) :: lv, h => by
    rw [levelEntries]
    rcases List.suffix_cons_iff.1 h with h | h
    · cases h
      exact List.mem_cons_self
    · exact List.mem_cons_of_mem _ (levelEntries_mem a h)

theorem levelRules_G {cs : Str} {rs : List (Char × Char)} {a : Str} {lv : List (Str × Char)} (hn : (lv.map Prod.fst ++ [a]).Nodup)
    (hm : nextName a lv = c!"main") : LevelG cs rs a lv (grammar (levelRules cs rs a lv)) := by
  have hn' : ((levelRules cs rs a lv).entries.map Prod.fst).Nodup := by
    simpa [levelRules, levelEntries_names] using hn
  constructor
  · rw [hm]
    exact lookup_of_mem hn' (ne := (a, _)) (List.mem_append_right _ (List.mem_singleton_self _))
  · intro n o ls hs
    exact lookup_of_mem hn' (ne := (n, _)) (List.mem_append_left _ (levelEntries_mem a hs))

theorem level_bounds (cs : Str) (rs : List (Char × Char)) (a : Str) (lv : List (Str × Char)) : RulesBoundsOK (levelRules cs rs a lv) := by
  intro ne h
  rcases List.mem_append.1 h with h | h
  · induction lv with
    | nil => cases h
    | cons x lv ih =>
      rw [levelEntries] at h
      rcases List.mem_cons.1 h with rfl | h
      · refine .and fun e he => ?_
        simp only [List.mem_cons, List.not_mem_nil, or_false] at he
        rcases he with rfl | rfl
        · exact .ruleName _
        · refine .rep (.and fun e he => ?_) (by simp)
          simp only [List.mem_cons, List.not_mem_nil, or_false] at he
          rcases he with rfl | rfl
          exacts [.simple _, .ruleName _]
      · exact ih (List.mem_append_left _ h) h
  · rw [List.mem_singleton.1 h]
    refine .or fun e he => ?_
    simp only [List.mem_cons, List.not_mem_nil, or_false] at he
    rcases he with rfl | rfl
    · exact .rep (.simple _) (by simp)
    · refine .and fun e he => ?_
      simp only [List.mem_cons, List.not_mem_nil, or_false] at he
      rcases he with rfl | rfl | rfl
      exacts [.simple _, .ruleName _, .simple _]

section
variable {cs : Str} {rs : List (Char × Char)} {a : Str} {lv : List (Str × Char)}

/-- **C98**: the accepted texts and their trees, level by level. -/
theorem C98_language (hn : (lv.map Prod.fst ++ [a]).Nodup) (hm : nextName a lv = c!"main") (hC : LevelC cs rs lv) {s : Str} (ha : Ascii s) (n : Node) :
    parse s (levelRules cs rs a lv) = .ok n ↔ ∃ t : LTree, t.OK cs rs lv lv ∧ s = t.str lv lv ∧ n = t.node a lv lv := by
  have hG := levelRules_G (cs := cs) (rs := rs) hn hm
  rw [C02_parse_ok_iff_peg _ ha (level_bounds cs rs a lv), ← hm]
  constructor
  · intro h
    obtain ⟨t, h1, h2, h3⟩ := level_inv hG _ lv (List.suffix_refl _) _ _ _ (Nat.le_refl _) h
    refine ⟨t, h1, by simpa using h2, ?_⟩
    simpa using h3
  · rintro ⟨t, h1, rfl, rfl⟩
    have := level_peg hG hC t lv (List.suffix_refl _) h1 [] (fun c hc => by cases hc)
    simpa using this

/-! ### Expressions -/

mutual
/-- what it stands for -/
def LTree.bin (lv : List (Str × Char)) : List (Str × Char) → LTree → Bin
  | _, .word w => .word w
  | _, .par t => t.bin lv lv
  | [], .chain _ _ => .word []
  | (_, o) :: ls, .chain t ts => ltreesBin lv o ls (t.bin lv ls) ts
def ltreesBin (lv : List (Str × Char)) (o : Char) (ls : List (Str × Char)) (acc : Bin) : List LTree → Bin
  | [] => acc
  | t :: ts => ltreesBin lv o ls (.op o acc (t.bin lv ls)) ts
end

theorem readBin_letters (a : Str) (w : Str) : readBin (.rule a (w.map fun c => .val [c])) = .word w := by
  have h : ∀ w : Str, leafText (w.map fun c => .val [c]) = w := by
    intro w
    induction w with
    | nil => rfl
    | cons c w ih => rw [List.map_cons, leafText, ih]; rfl
  have h2 : readBin (.rule a (w.map fun c => .val [c])) = .word (leafText (w.map fun c => .val [c])) := by
    match w with
    | [] => rfl
    | [_] => rfl
    | _ :: _ :: w => simp only [List.map_cons, readBin]
  rw [h2, h]

theorem node_rule : ∀ {t : LTree} {ls}, t.OK cs rs lv ls → ∃ m ms, t.node a lv ls = .rule m ms
  | .word w, [], _ => ⟨_, _, by rw [LTree.node]⟩
  | .word w, _ :: _, h => by simp [LTree.OK] at h
  | .par t, [], _ => ⟨_, _, by rw [LTree.node]⟩
  | .par t, _ :: _, h => by simp [LTree.OK] at h
  | .chain t ts, [], h => by simp [LTree.OK] at h
  | .chain t ts, (n, o) :: ls, _ => ⟨_, _, by rw [LTree.node]⟩

mutual
theorem readBin_node : ∀ (t : LTree) (ls), t.OK cs rs lv ls → readBin (t.node a lv ls) = t.bin lv ls
  | .word w, [], _ => by rw [LTree.node, LTree.bin, readBin_letters]
  | .word w, _ :: _, h => by simp [LTree.OK] at h
  | .par t, [], h => by
    rw [LTree.OK] at h
    obtain ⟨m, ms, hm⟩ := node_rule (a := a) h
    have ih := readBin_node t lv h
    rw [LTree.node, LTree.bin, ← ih, hm, readBin]
  | .par t, _ :: _, h => by simp [LTree.OK] at h
  | .chain t ts, [], h => by simp [LTree.OK] at h
  | .chain t ts, (n, o) :: ls, h => by
    rw [LTree.OK] at h
    obtain ⟨m, ms, hm⟩ := node_rule (a := a) h.1
    have ih := readBin_node t ls h.1
    have ih2 := readOps_nodes ts o ls (t.bin lv ls) h.2
    rw [LTree.node, LTree.bin, hm, readBin, ← hm, ih, ih2]
theorem readOps_nodes : ∀ (ts : List LTree) (o : Char) (ls) (acc : Bin), ltreesOK cs rs lv ls ts →
    readOps acc (ltreesNodes a lv o ls ts) = ltreesBin lv o ls acc ts
  | [], o, ls, acc, _ => by rw [ltreesNodes, ltreesBin, readOps]; simp
  | t :: ts, o, ls, acc, h => by
    rw [ltreesOK] at h
    have ih := readBin_node t ls h.1
    rw [ltreesNodes, ltreesBin, readOps, ih]
    exact readOps_nodes ts o ls _ h.2
end

/-- a text of a level is a text of the levels before -/
theorem level_lift {k : Nat} (hk : k ≤ lv.length) {t : LTree} (h : t.OK cs rs lv (lv.drop k)) : ∀ (d j : Nat), j + d = k →
    ∃ t' : LTree, t'.OK cs rs lv (lv.drop j) ∧ t'.str lv (lv.drop j) = t.str lv (lv.drop k) ∧ t'.bin lv (lv.drop j) = t.bin lv (lv.drop k) := by
  intro d
  induction d with
  | zero =>
    intro j hj
    cases hj
    exact ⟨t, h, rfl, rfl⟩
  | succ d ih =>
    intro j hj
    obtain ⟨t', h1, h2, h3⟩ := ih (j + 1) (by omega)
    rw [List.drop_eq_getElem_cons (show j < lv.length by omega)]
    refine ⟨.chain t' [], ?_, ?_, ?_⟩
    · rw [LTree.OK, ltreesOK]; exact ⟨h1, trivial⟩
    · rw [LTree.str, ltreesStr, List.append_nil, h2]
    · rw [LTree.bin, ltreesBin, h3]

theorem ltreesOK_append : ∀ {ts us : List LTree} {ls}, ltreesOK cs rs lv ls ts → ltreesOK cs rs lv ls us → ltreesOK cs rs lv ls (ts ++ us)
  | [], _, _, _, h => h
  | t :: ts, us, ls, h, h' => by
    rw [ltreesOK] at h
    rw [List.cons_append, ltreesOK]
    exact ⟨h.1, ltreesOK_append h.2 h'⟩

theorem ltreesStr_append (o : Char) (ls) (us : List LTree) : ∀ ts : List LTree,
    ltreesStr lv o ls (ts ++ us) = ltreesStr lv o ls ts ++ ltreesStr lv o ls us
  | [] => by rw [ltreesStr]; rfl
  | t :: ts => by rw [List.cons_append, ltreesStr, ltreesStr, ltreesStr_append o ls us ts]; simp

theorem ltreesBin_append (o : Char) (ls) (us : List LTree) : ∀ (ts : List LTree) (acc : Bin),
    ltreesBin lv o ls acc (ts ++ us) = ltreesBin lv o ls (ltreesBin lv o ls acc ts) us
  | [], acc => by rw [ltreesBin]; rfl
  | t :: ts, acc => by rw [List.cons_append, ltreesBin, ltreesBin, ltreesBin_append o ls us ts]

/-- every expression is written as a text of every level -/
theorem bin_level : ∀ (b : Bin), b.OK (InClass cs rs) (lv.map Prod.snd) → ∀ k, k ≤ lv.length →
    ∃ t : LTree, t.OK cs rs lv (lv.drop k) ∧ t.str lv (lv.drop k) = binText (lv.map Prod.snd) k b ∧ t.bin lv (lv.drop k) = b
  | .word w, h, k, hk => by
    rw [Bin.OK] at h
    obtain ⟨t, h1, h2, h3⟩ := level_lift (cs := cs) (rs := rs) (lv := lv) (k := lv.length) (Nat.le_refl _) (t := .word w)
      (by rw [List.drop_length, LTree.OK]; exact h) (lv.length - k) k (by omega)
    exact ⟨t, h1, by rw [h2, LTree.str, binText], by rw [h3, LTree.bin]⟩
  | .op o l r, h, k, hk => by
    rw [Bin.OK] at h
    have hi := List.idxOf_lt_length_of_mem h.1
    have hi' : (lv.map Prod.snd).idxOf o < lv.length := by simpa using hi
    have ho : (lv[(lv.map Prod.snd).idxOf o]'hi').2 = o := by
      have := List.getElem_idxOf hi
      rwa [List.getElem_map] at this
    obtain ⟨tl, l1, l2, l3⟩ := bin_level l h.2.1 ((lv.map Prod.snd).idxOf o) (by omega)
    obtain ⟨tr, r1, r2, r3⟩ := bin_level r h.2.2 ((lv.map Prod.snd).idxOf o + 1) (by omega)
    rw [binText]
    generalize hk' : (lv.map Prod.snd).idxOf o = i at *
    have hdrop := List.drop_eq_getElem_cons hi'
    have mid : ∃ t : LTree, t.OK cs rs lv (lv.drop i) ∧
        t.str lv (lv.drop i) = binText (lv.map Prod.snd) i l ++ [o] ++ binText (lv.map Prod.snd) (i + 1) r ∧ t.bin lv (lv.drop i) = .op o l r := by
      rw [hdrop] at l1 l2 l3 ⊢
      rw [show lv[i] = (lv[i].1, o) from Prod.ext rfl ho] at l1 l2 l3 ⊢
      cases tl with
      | word w => simp [LTree.OK] at l1
      | par t => simp [LTree.OK] at l1
      | chain t ts =>
        rw [LTree.OK] at l1
        rw [LTree.str] at l2
        rw [LTree.bin] at l3
        refine ⟨.chain t (ts ++ [tr]), ?_, ?_, ?_⟩
        · rw [LTree.OK]
          exact ⟨l1.1, ltreesOK_append l1.2 (by rw [ltreesOK, ltreesOK]; exact ⟨r1, trivial⟩)⟩
        · rw [LTree.str, ltreesStr_append, ltreesStr, ltreesStr, ← List.append_assoc, l2, r2]
          simp
        · rw [LTree.bin, ltreesBin_append, l3, ltreesBin, ltreesBin, r3]
    obtain ⟨t, t1, t2, t3⟩ := mid
    by_cases hki : k ≤ i
    · rw [if_pos hki]
      obtain ⟨t', h1, h2, h3⟩ := level_lift (by omega) t1 (i - k) k (by omega)
      exact ⟨t', h1, by rw [h2, t2], by rw [h3, t3]⟩
    · rw [if_neg hki]
      obtain ⟨t', h1, h2, h3⟩ := level_lift (by omega) t1 i 0 (by omega)
      rw [List.drop_zero] at h1 h2 h3
      obtain ⟨t'', h4, h5, h6⟩ := level_lift (cs := cs) (rs := rs) (lv := lv) (k := lv.length) (Nat.le_refl _) (t := .par t')
        (by rw [List.drop_length, LTree.OK]; exact h1) (lv.length - k) k (by omega)
      exact ⟨t'', h4, by rw [h5, LTree.str, h2, t2], by rw [h6, LTree.bin, h3, t3]⟩

theorem ascii_binText {ops : List Char} {L : Char → Prop} (ho : Ascii ops) (hL : ∀ c, L c → c.toNat < 128) : ∀ (b : Bin), b.OK L ops → ∀ k, Ascii (binText ops k b)
  | .word w, h, k => by
    rw [Bin.OK] at h
    rw [binText]
    exact fun c hc => hL c (h.2 c hc)
  | .op o l r, h, k => by
    rw [Bin.OK] at h
    have h1 := ascii_binText ho hL l h.2.1 (ops.idxOf o)
    have h2 := ascii_binText ho hL r h.2.2 (ops.idxOf o + 1)
    have h3 : Ascii [o] := fun c hc => by rw [List.mem_singleton.1 hc]; exact ho o h.1
    have h4 := ascii_append (ascii_append h1 h3) h2
    rw [binText]
    split
    · exact h4
    · exact ascii_append (ascii_consC (by decide) h4) (by decide)

/-- **C98**: every expression, written with parentheses only where they are needed, is accepted, and its tree stands for it. -/
theorem C98_round_trip (hn : (lv.map Prod.fst ++ [a]).Nodup) (hm : nextName a lv = c!"main") (hC : LevelC cs rs lv)
    {b : Bin} (hb : b.OK (InClass cs rs) (lv.map Prod.snd)) (ha : Ascii (binText (lv.map Prod.snd) 0 b)) :
    ∃ n, parse (binText (lv.map Prod.snd) 0 b) (levelRules cs rs a lv) = .ok n ∧ readBin n = b := by
  obtain ⟨t, h1, h2, h3⟩ := bin_level b hb 0 (Nat.zero_le _)
  rw [List.drop_zero] at h1 h2 h3
  exact ⟨t.node a lv lv, (C98_language hn hm hC ha _).2 ⟨t, h1, h2.symm, rfl⟩, by rw [readBin_node t lv h1, h3]⟩

/-- **C98**: so different expressions are written differently. -/
theorem C98_unambiguous (hn : (lv.map Prod.fst ++ [a]).Nodup) (hm : nextName a lv = c!"main") (hC : LevelC cs rs lv)
    {b b' : Bin} (hb : b.OK (InClass cs rs) (lv.map Prod.snd)) (hb' : b'.OK (InClass cs rs) (lv.map Prod.snd))
    (ha : Ascii (binText (lv.map Prod.snd) 0 b)) (h : binText (lv.map Prod.snd) 0 b = binText (lv.map Prod.snd) 0 b') : b = b' := by
  obtain ⟨n, h1, h2⟩ := C98_round_trip hn hm hC hb ha
  obtain ⟨m, h3, h4⟩ := C98_round_trip hn hm hC hb' (h ▸ ha)
  rw [h, h3] at h1
  cases h1
  rw [← h2, h4]

mutual
theorem bin_ok : ∀ (t : LTree) (ls), ls <:+ lv → t.OK cs rs lv ls → (t.bin lv ls).OK (InClass cs rs) (lv.map Prod.snd)
  | .word w, [], _, h => by rw [LTree.OK] at h; rw [LTree.bin, Bin.OK]; exact h
  | .word w, _ :: _, _, h => by simp [LTree.OK] at h
  | .par t, [], _, h => by rw [LTree.OK] at h; rw [LTree.bin]; exact bin_ok t lv (List.suffix_refl _) h
  | .par t, _ :: _, _, h => by simp [LTree.OK] at h
  | .chain t ts, [], _, h => by simp [LTree.OK] at h
  | .chain t ts, (n, o) :: ls, hs, h => by
    rw [LTree.OK] at h
    rw [LTree.bin]
    exact bins_ok ts o ls _ (suffix_tail hs) (List.mem_map.2 ⟨(n, o), hs.subset List.mem_cons_self, rfl⟩) (bin_ok t ls (suffix_tail hs) h.1) h.2
theorem bins_ok : ∀ (ts : List LTree) (o : Char) (ls) (acc : Bin), ls <:+ lv → o ∈ lv.map Prod.snd → acc.OK (InClass cs rs) (lv.map Prod.snd) →
    ltreesOK cs rs lv ls ts → (ltreesBin lv o ls acc ts).OK (InClass cs rs) (lv.map Prod.snd)
  | [], o, ls, acc, _, _, h, _ => by rw [ltreesBin]; exact h
  | t :: ts, o, ls, acc, hs, ho, h, hts => by
    rw [ltreesOK] at hts
    rw [ltreesBin]
    exact bins_ok ts o ls _ hs ho (by rw [Bin.OK]; exact ⟨ho, h, bin_ok t ls hs hts.1⟩) hts.2
end

/-- **C98**: the tree of any accepted text stands for an expression of the operators and words; written again, without needless
parentheses, it is read as the same expression. -/
theorem C98_again (hn : (lv.map Prod.fst ++ [a]).Nodup) (hm : nextName a lv = c!"main") (hC : LevelC cs rs lv)
    (ho : Ascii (lv.map Prod.snd)) (hL : ∀ c, InClass cs rs c → c.toNat < 128) {s : Str} {n : Node}
    (ha : Ascii s) (h : parse s (levelRules cs rs a lv) = .ok n) :
    (readBin n).OK (InClass cs rs) (lv.map Prod.snd) ∧
    ∃ n', parse (binText (lv.map Prod.snd) 0 (readBin n)) (levelRules cs rs a lv) = .ok n' ∧ readBin n' = readBin n := by
  obtain ⟨t, h1, h2, rfl⟩ := (C98_language hn hm hC ha n).1 h
  have hb : (readBin (t.node a lv lv)).OK (InClass cs rs) (lv.map Prod.snd) := by
    rw [readBin_node t lv h1]
    exact bin_ok t lv (List.suffix_refl _) h1
  exact ⟨hb, C98_round_trip hn hm hC hb (ascii_binText ho hL _ hb 0)⟩

end

/-- three levels, in the PEG notation -/
theorem level_rules_of_text : rulesFromPeg c!"main = t ('+' t)*\nt = p ('*' p)*\np = a ('^' a)*\na = [0-9]+ / '(' main ')'\n" =
    .ok ⟨(levelRules [] [('0', '9')] c!"a" [(c!"main", '+'), (c!"t", '*'), (c!"p", '^')]).entries.reverse⟩ :=
  rulesFromPeg_of 400 (by decide +kernel)

/-- `1+2*(3+4)+5`: the parentheses are needed, and the sum is of the first two and the last -/
example : binText c!"+*^" 0 (.op '+' (.op '+' (.word c!"1") (.op '*' (.word c!"2") (.op '+' (.word c!"3") (.word c!"4")))) (.word c!"5")) =
    c!"1+2*(3+4)+5" := by decide

example : ∃ n, parse c!"1+2*(3+4)+5" (levelRules [] [('0', '9')] c!"a" [(c!"main", '+'), (c!"t", '*'), (c!"p", '^')]) = .ok n ∧
    readBin n = .op '+' (.op '+' (.word c!"1") (.op '*' (.word c!"2") (.op '+' (.word c!"3") (.word c!"4")))) (.word c!"5") :=
  C98_round_trip (cs := []) (rs := [('0', '9')]) (lv := [(c!"main", '+'), (c!"t", '*'), (c!"p", '^')]) (by decide) rfl
    ⟨by decide, by simp [InClass], by decide, by simp [InClass], by simp [InClass]⟩
    (b := .op '+' (.op '+' (.word c!"1") (.op '*' (.word c!"2") (.op '+' (.word c!"3") (.word c!"4")))) (.word c!"5"))
    (by simp [Bin.OK, InClass]) (by decide)

end DP
