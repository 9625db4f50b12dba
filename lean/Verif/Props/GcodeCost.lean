/-
C97: what `rust_from_rules` needs (src/peg/gcode.rs:48-129).
-/
import Verif.Model.GcodeCost
import Verif.Spec.CodeDepth
import Verif.Props.RuleSize

namespace DP
open Spec Spec.Syntax Gcode

/-! ### Calls in progress -/

theorem bounds2codeWithin_eq : ∀ (d : Nat) rs, bounds2codeWithin d rs = if rs.length + 1 ≤ d then some (bounds2code [] rs) else none
  | 0, rs => by rw [bounds2codeWithin, if_neg (by omega)]
  | d + 1, [] => by simp [bounds2codeWithin, bounds2code]
  | d + 1, (a, b) :: rs => by
    rw [bounds2codeWithin, bounds2codeWithin_eq d rs]
    by_cases h : rs.length + 1 ≤ d
    · rw [if_pos h, if_pos (by simpa using h)]; rfl
    · rw [if_neg h, if_neg (by simpa using h)]; rfl

theorem atom2codeWithin_eq (d : Nat) (a : DP.Atom) :
    atom2codeWithin d a = if codeDepth (.simple a) ≤ d + 1 then some (atom2code a) else none := by
  cases d with
  | zero => cases a <;> simp [atom2codeWithin, codeDepth]
  | succ d =>
    cases a with
    | mtch cs rs =>
      rw [atom2codeWithin, codeDepth]
      cases d with
      | zero => simp [matchRules2codeWithin]
      | succ d =>
        rw [matchRules2codeWithin, bounds2codeWithin_eq]
        by_cases h : rs.length + 1 ≤ d
        · rw [if_pos h, if_pos (by omega)]; rfl
        · rw [if_neg h, if_neg (by omega)]; rfl
    | _ => simp [atom2codeWithin, codeDepth, atom2code]

mutual
theorem expr2codeWithin_eq : ∀ (d : Nat) e, expr2codeWithin d e = if codeDepth e ≤ d then some (expr2code e) else none
  | 0, e => by
    rw [if_neg]
    · cases e <;> rw [expr2codeWithin]
    · cases e with
      | simple a => cases a <;> simp [codeDepth]
      | _ => simp [codeDepth]
  | d + 1, .simple a => by rw [expr2codeWithin, atom2codeWithin_eq, expr2code]
  | 0 + 1, .and es => by simp [expr2codeWithin, codeDepth]
  | d + 1 + 1, .and es => by
    rw [expr2codeWithin, mexprFoldWithin_eq d es [], codeDepth, expr2code]
    by_cases h : codeDepths es ≤ d
    · rw [if_pos h, if_pos (by omega)]; rfl
    · rw [if_neg h, if_neg (by omega)]; rfl
  | 0 + 1, .or es => by simp [expr2codeWithin, codeDepth]
  | d + 1 + 1, .or es => by
    rw [expr2codeWithin, mexprFoldWithin_eq d es [], codeDepth, expr2code]
    by_cases h : codeDepths es ≤ d
    · rw [if_pos h, if_pos (by omega)]; rfl
    · rw [if_neg h, if_neg (by omega)]; rfl
  | d + 1, .not e => by
    have e1 : expr2codeWithin (d + 1) (.not e) = (expr2codeWithin d e).map fun s => c!"not!(" ++ s ++ c!")" := by
      cases d <;> simp [expr2codeWithin]
    rw [e1, expr2codeWithin_eq d e, codeDepth, expr2code]
    by_cases h : codeDepth e ≤ d
    · rw [if_pos h, if_pos (by omega)]; rfl
    · rw [if_neg h, if_neg (by omega)]; rfl
  | 0 + 1, .rep e min max => by simp [expr2codeWithin, codeDepth]
  | d + 1 + 1, .rep e min max => by
    simp only [expr2codeWithin, expr2code]
    rw [expr2codeWithin_eq d e, codeDepth]
    by_cases h : codeDepth e ≤ d
    · rw [if_pos h, if_pos (by omega)]; rfl
    · rw [if_neg h, if_neg (by omega)]; rfl
  | d + 1, .ruleName n => by simp [expr2codeWithin, codeDepth, expr2code]
theorem mexprFoldWithin_eq (d : Nat) : ∀ es acc, mexprFoldWithin d acc es = if codeDepths es ≤ d then some (mexpr2code acc es) else none
  | [], acc => by simp [mexprFoldWithin, codeDepths, mexpr2code]
  | e :: es, acc => by
    rw [mexprFoldWithin, expr2codeWithin_eq d e, codeDepths, mexpr2code]
    by_cases h : codeDepth e ≤ d
    · rw [if_pos h, Option.bind_some, mexprFoldWithin_eq d es]
      by_cases h2 : codeDepths es ≤ d
      · simp [h, h2]
      · simp [h2]
    · simp [h]
end

theorem rulesWithin_eq (d : Nat) : ∀ l acc, rulesWithin d acc l =
    if rulesCodeDepth l ≤ d then some (l.foldl (fun acc ne => addRule acc (rule2code ne.1 ne.2)) acc) else none
  | [], acc => by simp [rulesWithin, rulesCodeDepth]
  | (n, e) :: l, acc => by
    rw [rulesCodeDepth]
    cases d with
    | zero => rw [rulesWithin, if_neg (by omega)]
    | succ d' =>
      rw [rulesWithin, expr2codeWithin_eq]
      by_cases h : codeDepth e ≤ d'
      · rw [if_pos h, Option.bind_some, rulesWithin_eq (d' + 1) l]
        by_cases h2 : rulesCodeDepth l ≤ d' + 1
        · rw [if_pos h2, if_pos (by simp only; omega)]; rfl
        · rw [if_neg h2, if_neg (by omega)]
      · rw [if_neg h, if_neg (by simp only; omega)]; rfl

/-- **C97**: how many calls must be allowed to be in progress: exactly one more than the deepest rule needs, in whatever order the
entries are visited; and then the answer is the usual one. -/
theorem C97_depth (d : Nat) (order : List (Str × Expr)) :
    rulesWithin d [] order = if rulesCodeDepth order ≤ d then some (rustFromEntries order) else none := rulesWithin_eq d order []

theorem rulesCodeDepth_le {l : List (Str × Expr)} {k : Nat} : rulesCodeDepth l ≤ k ↔ ∀ ne ∈ l, codeDepth ne.2 + 1 ≤ k := by
  induction l with
  | nil => simp [rulesCodeDepth]
  | cons x l ih => rw [rulesCodeDepth, Nat.max_le, ih]; simp

/-- **C97**: the order does not matter. -/
theorem C97_any_order {l l' : List (Str × Expr)} (h : l.Perm l') : rulesCodeDepth l = rulesCodeDepth l' := by
  have a := (rulesCodeDepth_le (l := l) (k := rulesCodeDepth l')).2 fun ne hne => rulesCodeDepth_le.1 (Nat.le_refl _) ne (h.mem_iff.1 hne)
  have b := (rulesCodeDepth_le (l := l') (k := rulesCodeDepth l)).2 fun ne hne => rulesCodeDepth_le.1 (Nat.le_refl _) ne (h.mem_iff.2 hne)
  omega

theorem exprSize_pos (e : Expr) : 1 ≤ exprSize e := by
  cases e with
  | simple a => cases a <;> (simp [exprSize, atomSize]; try omega)
  | _ => (simp [exprSize]; try omega)

mutual
theorem codeDepth_le : ∀ e, codeDepth e ≤ 2 * exprSize e + 2
  | .simple (.mtch cs rs) => by simp [codeDepth, exprSize, atomSize]; omega
  | .simple (.literal _) => by simp [codeDepth]
  | .simple (.error _) => by simp [codeDepth]
  | .simple .dot => by simp [codeDepth]
  | .simple .eof => by simp [codeDepth]
  | .and es => by have := codeDepths_le es; simp [codeDepth, exprSize]; omega
  | .or es => by have := codeDepths_le es; simp [codeDepth, exprSize]; omega
  | .not e => by have := codeDepth_le e; simp [codeDepth, exprSize]; omega
  | .rep e _ _ => by have := codeDepth_le e; simp [codeDepth, exprSize]; omega
  | .ruleName _ => by simp [codeDepth]
theorem codeDepths_le : ∀ es, codeDepths es ≤ 2 * exprsSize es + 2
  | [] => by simp [codeDepths]
  | e :: es => by
    have := codeDepth_le e
    have := codeDepths_le es
    rw [codeDepths, exprsSize]; omega
end

theorem le_sum_of_mem_map {α : Type} {f : α → Nat} {x : α} : ∀ {l : List α}, x ∈ l → f x ≤ (l.map f).sum
  | y :: l, h => by
    rw [List.map_cons, List.sum_cons]
    rcases List.mem_cons.1 h with rfl | h
    · omega
    · have := le_sum_of_mem_map (f := f) h
      omega

/-- **C97**: at most twice the size of the rules, and one more. -/
theorem C97_size (R : SetOfRules) : rulesCodeDepth R.entries ≤ 2 * rulesSize R + 1 := by
  rw [rulesCodeDepth_le]
  intro ne hne
  have h1 := codeDepth_le ne.2
  have h2 : 1 + ne.1.length + exprSize ne.2 ≤ rulesSize R :=
    le_sum_of_mem_map (f := fun ne : Str × Expr => 1 + ne.1.length + exprSize ne.2) hne
  omega

/-- **C97**: for rules that were read from a text, four times its length suffices. -/
theorem C97_linear {s : Str} {R : SetOfRules} {order : List (Str × Expr)} {d : Nat} (h : rulesFromPeg s = .ok R)
    (ho : order.Perm R.entries) (hd : 4 * s.length + 1 ≤ d) : rulesWithin d [] order = some (rustFromEntries order) := by
  rw [C97_depth, if_pos]
  have := C97_any_order ho
  have := C97_size R
  have := C93_rules h
  omega

/-! ### Characters written -/

theorem written_fst (s : Str) (k : Nat) : (written s k).1 = s := rfl
theorem written_snd (s : Str) (k : Nat) : (written s k).2 = k + s.length := rfl

theorem replaceEscCopies_fst (s : Str) : (replaceEscCopies s).1 = replaceEsc s := rfl

theorem bounds2codeCopies_fst : ∀ rs, (bounds2codeCopies rs).1 = bounds2code [] rs
  | [] => rfl
  | (a, b) :: rs => by
    have := bounds2codeCopies_fst rs
    simp only [bounds2codeCopies, written_fst, this, bounds2code]

theorem atom2codeCopies_fst (a : DP.Atom) : (atom2codeCopies a).1 = atom2code a := by
  cases a with
  | mtch cs rs => simp only [atom2codeCopies, written_fst, bounds2codeCopies_fst, atom2code, matchRules2code]
  | _ => simp only [atom2codeCopies, written_fst, replaceEscCopies_fst, atom2code]

mutual
theorem expr2codeCopies_fst : ∀ e, (expr2codeCopies e).1 = expr2code e
  | .simple a => by rw [expr2codeCopies, atom2codeCopies_fst, expr2code]
  | .and es => by
    have := mexprFoldCopies_fst es ([], 0)
    simp only [expr2codeCopies, written_fst, this, expr2code]
  | .or es => by
    have := mexprFoldCopies_fst es ([], 0)
    simp only [expr2codeCopies, written_fst, this, expr2code]
  | .not e => by simp only [expr2codeCopies, written_fst, expr2codeCopies_fst e, expr2code]
  | .rep e min max => by
    simp only [expr2codeCopies, written_fst, expr2codeCopies_fst e, expr2code]
    cases max <;> rfl
  | .ruleName n => by simp only [expr2codeCopies, written_fst, expr2code]
theorem mexprFoldCopies_fst : ∀ es (acc : Str × Nat), (mexprFoldCopies acc es).1 = mexpr2code acc.1 es
  | [], acc => by rw [mexprFoldCopies, mexpr2code]
  | e :: es, acc => by
    simp only [mexprFoldCopies, mexpr2code]
    rw [mexprFoldCopies_fst es]
    by_cases h : acc.1.isEmpty = true
    · rw [if_pos h, if_pos h, written_fst, expr2codeCopies_fst e]
    · rw [if_neg h, if_neg h, written_fst, expr2codeCopies_fst e]
end

/-- what one rule costs -/
def ruleCopies (ne : Str × Expr) : Nat := (expr2codeCopies ne.2).2 + 2 * (rule2code ne.1 ne.2).length + 10

theorem rulesCopies_eq : ∀ l (acc : Str × Nat), rulesCopies acc l =
    (l.foldl (fun acc ne => addRule acc (rule2code ne.1 ne.2)) acc.1, acc.2 + (l.map ruleCopies).sum)
  | [], acc => by simp [rulesCopies]
  | (n, e) :: l, acc => by
    simp only [rulesCopies, written_fst, written_snd, rulesCopies_eq l, List.foldl_cons, List.map_cons, List.sum_cons, expr2codeCopies_fst, ruleCopies, rule2code]
    congr 1
    omega

/-- **C97**: the code is the usual one, and what the rules cost adds up: nothing is written again for the rules before. -/
theorem C97_copies (order : List (Str × Expr)) :
    rulesCopies ([], 0) order = (rustFromEntries order, (order.map ruleCopies).sum) := by
  rw [rulesCopies_eq]
  simp [rustFromEntries]

theorem length_replaceChar (c : Char) {b : Str} (hb : b.length = 2) : ∀ s, s.length ≤ (replaceChar c b s).length
  | [] => by simp
  | x :: xs => by
    have := length_replaceChar c hb xs
    rw [replaceChar]
    split <;> simp [hb] <;> omega

theorem replaceEscCopies_le (s : Str) : (replaceEscCopies s).2 ≤ 10 * s.length := by
  have h := length_replaceEsc s
  have h1 := length_replaceChar '\n' (b := c!"\\n") rfl s
  have h2 := length_replaceChar '\r' (b := c!"\\r") rfl (replaceChar '\n' c!"\\n" s)
  have h3 := length_replaceChar '\t' (b := c!"\\t") rfl (replaceChar '\r' c!"\\r" (replaceChar '\n' c!"\\n" s))
  have h4 := length_replaceChar '"' (b := c!"\\\"") rfl (replaceChar '\t' c!"\\t" (replaceChar '\r' c!"\\r" (replaceChar '\n' c!"\\n" s)))
  rw [replaceEsc] at h
  simp only [replaceEscCopies]
  omega

theorem bounds2codeCopies_snd : ∀ rs, 2 * (bounds2codeCopies rs).2 = 19 * (rs.length * (rs.length + 1))
  | [] => rfl
  | (a, b) :: rs => by
    have h := bounds2codeCopies_snd rs
    have h1 := length_bounds2code [] rs
    have h2 := bounds2codeCopies_fst rs
    simp only [bounds2codeCopies, written_snd, h2, List.length_append, h1, List.length_cons, List.length_nil]
    have e : (rs.length + 1) * (rs.length + 1 + 1) = rs.length * (rs.length + 1) + 2 * (rs.length + 1) := by
      rw [Nat.mul_comm, ← Nat.add_mul]
    rw [e]
    omega

/-- squares grow -/
theorem sq_add (a b : Nat) : (a + b) * (a + b) = a * a + 2 * (a * b) + b * b := by
  rw [Nat.add_mul, Nat.mul_add, Nat.mul_add, Nat.mul_comm b a]
  omega

theorem atom2codeCopies_le (a : DP.Atom) : (atom2codeCopies a).2 + 25 * atomSize a ≤ 64 * (atomSize a * atomSize a) := by
  cases a with
  | literal v =>
    have h := replaceEscCopies_le v
    have h2 := length_replaceEsc v
    have := sq_add 1 v.length
    simp only [atom2codeCopies, written_snd, replaceEscCopies_fst, List.length_append, atomSize, List.length_cons, List.length_nil] at *
    omega
  | error v =>
    have h := replaceEscCopies_le v
    have h2 := length_replaceEsc v
    have := sq_add 1 v.length
    simp only [atom2codeCopies, written_snd, replaceEscCopies_fst, List.length_append, atomSize, List.length_cons, List.length_nil] at *
    omega
  | mtch cs rs =>
    have h := bounds2codeCopies_snd rs
    have h1 := length_bounds2code [] rs
    have h2 := sq_add (1 + cs.length) (2 * rs.length)
    have h3 := sq_add 1 cs.length
    have h4 : 2 * rs.length * (2 * rs.length) = 4 * (rs.length * rs.length) := by
      rw [Nat.mul_mul_mul_comm]
    have h5 : rs.length * (rs.length + 1) = rs.length * rs.length + rs.length := Nat.mul_succ ..
    have h6 : (1 + cs.length) * (2 * rs.length) = 2 * rs.length + cs.length * (2 * rs.length) := by rw [Nat.add_mul, Nat.one_mul]
    simp only [atom2codeCopies, written_snd, bounds2codeCopies_fst, h1, List.length_append, atomSize, List.length_cons, List.length_nil] at *
    omega
  | dot => simp [atom2codeCopies, written_snd, atomSize]
  | eof => simp [atom2codeCopies, written_snd, atomSize]

mutual
theorem expr2codeCopies_le : ∀ e, (expr2codeCopies e).2 + 25 * exprSize e ≤ 64 * (exprSize e * exprSize e)
  | .simple a => by rw [expr2codeCopies, exprSize]; exact atom2codeCopies_le a
  | .and es => by
    have h := mexprFoldCopies_le es ([], 0) 0 (by simp) (by simp)
    have h1 := length_mexpr2code es []
    have h2 := sq_add 1 (exprsSize es)
    simp only [expr2codeCopies, written_snd, mexprFoldCopies_fst, List.length_append, exprSize, List.length_cons, List.length_nil, Nat.zero_add] at *
    omega
  | .or es => by
    have h := mexprFoldCopies_le es ([], 0) 0 (by simp) (by simp)
    have h1 := length_mexpr2code es []
    have h2 := sq_add 1 (exprsSize es)
    simp only [expr2codeCopies, written_snd, mexprFoldCopies_fst, List.length_append, exprSize, List.length_cons, List.length_nil, Nat.zero_add] at *
    omega
  | .not e => by
    have h := expr2codeCopies_le e
    have h1 := length_expr2code e
    have h2 := sq_add 1 (exprSize e)
    simp only [expr2codeCopies, written_snd, expr2codeCopies_fst, List.length_append, exprSize, List.length_cons, List.length_nil] at *
    omega
  | .rep e min max => by
    have h := expr2codeCopies_le e
    have h1 := length_expr2code e
    have h2 := sq_add (1 + min + max.getD 0) (exprSize e)
    have h3 := sq_add 1 (min + max.getD 0)
    have h4 := length_natCode min
    have h5 := exprSize_pos e
    have h6 : (1 + min + max.getD 0) * exprSize e ≥ (1 + min + max.getD 0) * 1 := Nat.mul_le_mul_left _ h5
    have h7 : (1 + min + max.getD 0) * exprSize e ≥ 1 * exprSize e := Nat.mul_le_mul_right _ (by omega)
    rw [← Nat.add_assoc] at h3
    cases max with
    | none =>
      simp only [expr2codeCopies, written_snd, expr2codeCopies_fst, List.length_append, exprSize, List.length_cons, List.length_nil, Option.getD] at *
      omega
    | some m =>
      have h8 := length_natCode m
      simp only [expr2codeCopies, written_snd, expr2codeCopies_fst, List.length_append, exprSize, List.length_cons, List.length_nil, Option.getD] at *
      omega
  | .ruleName n => by
    have := sq_add 1 n.length
    simp only [expr2codeCopies, written_snd, List.length_append, exprSize, List.length_cons, List.length_nil] at *
    omega
theorem mexprFoldCopies_le : ∀ es (acc : Str × Nat) (A : Nat), acc.1.length ≤ 25 * A → acc.2 ≤ 64 * (A * A) →
    (mexprFoldCopies acc es).2 ≤ 64 * ((A + exprsSize es) * (A + exprsSize es))
  | [], acc, A, _, h => by simpa [mexprFoldCopies, exprsSize] using h
  | e :: es, acc, A, h1, h2 => by
    have h := expr2codeCopies_le e
    have h3 := length_expr2code e
    have h4 := exprSize_pos e
    have h5 := sq_add A (exprSize e)
    simp only [mexprFoldCopies, exprsSize]
    rw [← Nat.add_assoc]
    apply mexprFoldCopies_le es
    · split
      · rw [written_fst, expr2codeCopies_fst]; omega
      · simp only [written_fst, expr2codeCopies_fst, List.length_append, List.length_cons, List.length_nil]; omega
    · split
      · rw [written_snd, expr2codeCopies_fst]; omega
      · rename_i hne
        have hA : 1 ≤ A := by
          rcases Nat.eq_zero_or_pos A with h0 | h0
          · subst h0
            exact absurd (List.isEmpty_iff.2 (List.length_eq_zero_iff.1 (by omega))) hne
          · exact h0
        have h6 : A * exprSize e ≥ A * 1 := Nat.mul_le_mul_left _ h4
        have h7 : A * exprSize e ≥ 1 * exprSize e := Nat.mul_le_mul_right _ hA
        simp only [written_snd, expr2codeCopies_fst, List.length_append, List.length_cons, List.length_nil]
        omega
end

theorem ruleCopies_le (ne : Str × Expr) :
    ruleCopies ne ≤ 64 * ((1 + ne.1.length + exprSize ne.2) * (1 + ne.1.length + exprSize ne.2)) := by
  have h := expr2codeCopies_le ne.2
  have h1 := length_expr2code ne.2
  have h2 := sq_add (1 + ne.1.length) (exprSize ne.2)
  have h3 := sq_add 1 ne.1.length
  have h4 := exprSize_pos ne.2
  have h5 : (1 + ne.1.length) * exprSize ne.2 ≥ 1 * exprSize ne.2 := Nat.mul_le_mul_right _ (by omega)
  have h6 : (1 + ne.1.length) * exprSize ne.2 ≥ (1 + ne.1.length) * 1 := Nat.mul_le_mul_left _ h4
  simp only [ruleCopies, rule2code, List.length_append, List.length_cons, List.length_nil]
  omega

theorem sum_squares_le {α : Type} (f : α → Nat) : ∀ l : List α, (l.map fun x => f x * f x).sum ≤ (l.map f).sum * (l.map f).sum
  | [] => by simp
  | x :: l => by
    have := sum_squares_le f l
    have := sq_add (f x) (l.map f).sum
    simp only [List.map_cons, List.sum_cons]
    omega

/-- **C97**: at most 64 times the square of the size of the rules is written. -/
theorem C97_quadratic {R : SetOfRules} {order : List (Str × Expr)} (ho : order.Perm R.entries) :
    (rulesCopies ([], 0) order).2 ≤ 64 * (rulesSize R * rulesSize R) := by
  rw [C97_copies]
  simp only
  have h1 := (ho.map ruleCopies).sum_nat
  rw [h1, rulesSize]
  refine Nat.le_trans ?_ (Nat.mul_le_mul_left 64 (sum_squares_le (fun ne : Str × Expr => 1 + ne.1.length + exprSize ne.2) R.entries))
  generalize R.entries = l
  induction l with
  | nil => simp
  | cons x l ih =>
    have := ruleCopies_le x
    simp only [List.map_cons, List.sum_cons] at *
    omega

/-- **C97**: at most 256 times the square of the length of the text. -/
theorem C97_quadratic_of_text {s : Str} {R : SetOfRules} {order : List (Str × Expr)} (h : rulesFromPeg s = .ok R)
    (ho : order.Perm R.entries) : (rulesCopies ([], 0) order).2 ≤ 256 * (s.length * s.length) := by
  have h1 := C97_quadratic ho
  have h2 := C93_rules h
  have h3 := Nat.mul_le_mul h2 h2
  rw [Nat.mul_mul_mul_comm] at h3
  omega

/-! ### Both are attained -/

theorem rangesStr_replicate (n : Nat) : rangesStr (List.replicate n ('a', 'b')) = (List.replicate n c!"a-b").flatten := by
  induction n with
  | zero => rfl
  | succ n ih => rw [List.replicate_succ, rangesStr, ih, List.replicate_succ, List.flatten_cons]

/-- **C97**: one class with many ranges needs calls in progress proportional to the text, and quadratic writing: no smaller bounds
hold, up to the factors. -/
theorem C97_class (n : Nat) : ∃ R, rulesFromPeg (c!"main = [a-b" ++ (List.replicate n c!"a-b").flatten ++ c!"]\n") = .ok R ∧
    rulesCodeDepth R.entries = n + 6 ∧ 9 * (n * n) ≤ (rulesCopies ([], 0) R.entries).2 := by
  have h := C33_round_trip (rs := [(c!"main", .simple (.mtch [] (List.replicate (n + 1) ('a', 'b'))))]) (by simp) (fun r hr => by
    rw [List.mem_singleton.1 hr]
    refine ⟨validName_main, .cls ⟨.inr (by simp), ⟨by decide, fun r hr => ?_⟩, by simp, by simp, by simp⟩⟩
    rw [List.eq_of_mem_replicate hr]
    decide)
  have e : printRules [(c!"main", .simple (.mtch [] (List.replicate (n + 1) ('a', 'b'))))] =
      c!"main = [a-b" ++ (List.replicate n c!"a-b").flatten ++ c!"]\n" := by
    have := rangesStr_replicate n
    simp [printRules, defsE, ruleE, altE, only, Defs.str, Def.str, Alt.str, Seq.str, Tail.str, Item.str, Syntax.Atom.str, gapsStr, Gap.str, Term.gaps, Eol.str,
      List.replicate_succ, rangesStr, this]
  rw [e] at h
  refine ⟨_, h, ?_, ?_⟩
  all_goals rw [show SetOfRules.ofList [(c!"main", .simple (.mtch [] (List.replicate (n + 1) ('a', 'b'))))] =
    ⟨[(c!"main", .simple (.mtch [] (List.replicate (n + 1) ('a', 'b'))))]⟩ from rfl]
  · simp [rulesCodeDepth, codeDepth]
  · rw [C97_copies]
    have h1 := bounds2codeCopies_snd (List.replicate (n + 1) ('a', 'b'))
    have h2 : (n + 1) * (n + 1 + 1) = n * n + 3 * n + 2 := by
      rw [Nat.mul_add, Nat.mul_one, Nat.add_mul, Nat.mul_add]; omega
    rw [List.length_replicate, h2] at h1
    simp [ruleCopies, expr2codeCopies, atom2codeCopies, written_snd]
    omega

/-- a rule, the calls it needs and what is written for it -/
example : rulesWithin 6 [] [(c!"main", .and [.not (.simple .dot), .ruleName c!"x"])] = some c!"\n         r#\"main\"# => and!(not!(dot!()), ref_rule!(r#\"x\"#))" ∧
    rulesWithin 5 [] [(c!"main", .and [.not (.simple .dot), .ruleName c!"x"])] = none ∧
    (rulesCopies ([], 0) [(c!"main", .and [.not (.simple .dot), .ruleName c!"x"])]).2 = 225 := by decide

end DP
