/-
C78: what cannot be computed from a PEG text.
-/
import Verif.Props.Counter
import Verif.Props.Syntax
import Verif.Proofs.Minsky

namespace DP
open Spec Spec.Syntax Reg

/-- a text given by the numbers of its characters -/
def textOf (w : List Nat) : Str := w.map Char.ofNat

/-- the rules read from a PEG text accept some text -/
def AcceptsSome (w : List Nat) : Prop := ∃ R, rulesFromPeg (textOf w) = .ok R ∧ ∃ s t, parse s R = .ok t
/-- the rules read from a PEG text accept no text -/
def AcceptsNone (w : List Nat) : Prop := ∃ R, rulesFromPeg (textOf w) = .ok R ∧ ∀ s t, parse s R ≠ .ok t
/-- with the rules read from a PEG text, `parse` returns on every ASCII text -/
def AlwaysReturns (w : List Nat) : Prop := ∃ R, rulesFromPeg (textOf w) = .ok R ∧ ∀ s, Ascii s → parse s R ≠ .diverge
/-- the rules read from two PEG texts accept the same texts -/
def AcceptSame (w : List Nat × List Nat) : Prop := ∃ R R', rulesFromPeg (textOf w.1) = .ok R ∧ rulesFromPeg (textOf w.2) = .ok R' ∧
  ∀ s, (∃ t, parse s R = .ok t) ↔ ∃ t, parse s R' = .ok t

/-! ### The rules of a machine in PEG notation -/

theorem validName_word {n : Str} (h : ∃ c cs, n = c :: cs ∧ WordChar c ∧ ∀ d ∈ cs, WordChar d) : ValidName n := by
  obtain ⟨c, cs, rfl, h1, h2⟩ := h
  exact ⟨[], c :: cs, [], Or.inl rfl, ⟨c, cs, rfl, h1, fun d hd => Or.inl (h2 d hd)⟩, .nil, by simp⟩

theorem valid_as : ValidName c!"as" := validName_word ⟨'a', c!"s", rfl, by decide, by decide⟩
theorem valid_bs : ValidName c!"bs" := validName_word ⟨'b', c!"s", rfl, by decide, by decide⟩
theorem valid_run : ValidName c!"run" := validName_word ⟨'r', c!"un", rfl, by decide, by decide⟩
theorem valid_loop : ValidName c!"loop" := validName_word ⟨'l', c!"oop", rfl, by decide, by decide⟩

theorem peg_chrs (n : Nat) {c : Char} (h : c.toNat < 256) : PegExpr (chrs n c) :=
  .literal fun d hd => by rw [List.eq_of_mem_replicate hd]; exact h

theorem peg_chr {c : Char} (h : c.toNat < 256) : PegExpr (chr c) := peg_chrs 1 h
theorem peg_many {c : Char} (h : c.toNat < 256) : PegExpr (many c) := .star (peg_chr h)
theorem peg_look {e : Expr} (h : PegExpr e) : PegExpr (look e) := .not (.not h)

theorem peg_and {e f : Expr} {es : List Expr} (h1 : PegExpr e) (h2 : PegExpr f) (h3 : ∀ g ∈ es, PegExpr g) : PegExpr (.and (e :: f :: es)) :=
  .and (by simp) (by simpa [h1, h2] using h3)
theorem peg_or {e f : Expr} {es : List Expr} (h1 : PegExpr e) (h2 : PegExpr f) (h3 : ∀ g ∈ es, PegExpr g) : PegExpr (.or (e :: f :: es)) :=
  .or (by simp) (by simpa [h1, h2] using h3)

theorem peg_next (j pa qa pb qb : Nat) : PegExpr (nextIs j pa qa pb qb) := by
  have a := peg_many (c := 'a') (by decide)
  have b := peg_many (c := 'b') (by decide)
  refine peg_and (peg_look (peg_and a b ?_)) (peg_look (peg_and (peg_chrs _ (by decide)) (.ref valid_as) ?_)) ?_
  · simp only [List.mem_cons, List.not_mem_nil, or_false, forall_eq_or_imp, forall_eq]
    exact ⟨peg_chr (by decide), peg_chrs _ (by decide), .not (peg_chr (by decide))⟩
  · simp only [List.mem_cons, List.not_mem_nil, or_false, forall_eq_or_imp, forall_eq]
    exact ⟨peg_chrs _ (by decide), .not (peg_chr (by decide))⟩
  · simp only [List.mem_cons, List.not_mem_nil, or_false, forall_eq]
    refine peg_look (peg_and a (peg_chrs _ (by decide)) ?_)
    simp only [List.mem_cons, List.not_mem_nil, or_false, forall_eq_or_imp, forall_eq]
    exact ⟨.ref valid_bs, peg_chrs _ (by decide), .not (peg_chr (by decide))⟩

theorem peg_instr (i : Instr) : PegExpr (instrExpr i) := by
  rcases i with ⟨_ | _, j⟩ | ⟨_ | _, j, z⟩
  · exact peg_next _ _ _ _ _
  · exact peg_next _ _ _ _ _
  · exact peg_or (peg_next _ _ _ _ _) (peg_and (.not (peg_chr (by decide))) (peg_next _ _ _ _ _) (by simp)) (by simp)
  · exact peg_or (peg_next _ _ _ _ _) (peg_and (.not (peg_and (peg_many (by decide)) (peg_chr (by decide)) (by simp))) (peg_next _ _ _ _ _) (by simp)) (by simp)

theorem peg_moment (x : Instr × Nat) : PegExpr (momentExpr x) := by
  refine peg_and (peg_chrs _ (by decide)) (.not (peg_chr (by decide))) ?_
  simp only [List.mem_cons, List.not_mem_nil, or_false, forall_eq_or_imp, forall_eq]
  exact ⟨peg_instr _, peg_many (by decide), peg_many (by decide), peg_chr (by decide), .ref valid_run⟩

theorem peg_last (k : Nat) : PegExpr (lastExpr k) := by
  refine peg_and (peg_chrs _ (by decide)) (peg_many (by decide)) ?_
  simp only [List.mem_cons, List.not_mem_nil, or_false, forall_eq_or_imp, forall_eq]
  exact ⟨peg_many (by decide), peg_many (by decide), peg_chr (by decide), .not .dot⟩

theorem machine_notation {P : List Instr} (hP : P ≠ []) (a : Nat) {tail : List Expr} (ht : ∀ e ∈ tail, PegExpr e) :
    PegRulesOK (machineRules P a tail) := by
  intro ne h
  simp only [machineRules, List.mem_cons, List.not_mem_nil, or_false] at h
  have ch : ∀ {c : Char}, c.toNat < 256 → PegExpr (chr c) := peg_chr
  rcases h with rfl | rfl | rfl | rfl | rfl
  · refine ⟨validName_main, peg_and (peg_look (.literal ?_)) (.ref valid_run) ht⟩
    intro c hc
    simp only [Moment.text, List.mem_append, List.mem_replicate, List.mem_singleton] at hc
    rcases hc with ⟨_, rfl⟩ | ⟨_, rfl⟩ | ⟨_, rfl⟩ | rfl <;> decide
  · refine ⟨valid_run, .or ?_ ?_⟩
    · have : 0 < P.length := List.length_pos_iff.2 hP
      simp
      omega
    · intro e he
      rcases List.mem_append.1 he with he | he
      · obtain ⟨x, _, rfl⟩ := List.mem_map.1 he
        exact peg_moment x
      · rw [List.mem_singleton.1 he]
        exact peg_last _
  · refine ⟨valid_as, peg_or (peg_and (ch (by decide)) (.ref valid_as) ?_) (peg_and (peg_many (by decide)) (ch (by decide)) ?_) (by simp)⟩
    · simpa using ch (c := 'a') (by decide)
    · simpa using peg_many (c := 's') (by decide)
  · refine ⟨valid_bs, peg_or (peg_and (ch (by decide)) (.ref valid_bs) ?_) (peg_and (ch (by decide)) (peg_many (by decide)) ?_) (by simp)⟩
    · simpa using ch (c := 'b') (by decide)
    · simpa using peg_many (c := 'a') (by decide)
  · exact ⟨valid_loop, .ref valid_loop⟩

theorem pieces_as (a : Nat) : piecesStr ((List.replicate a 'a').map pieceOf) = List.replicate a 'a' := by
  induction a with
  | zero => rfl
  | succ a ih =>
    rw [List.replicate_succ, List.map_cons]
    show Piece.str (pieceOf 'a') ++ piecesStr ((List.replicate a 'a').map pieceOf) = _
    rw [ih]
    rfl

theorem pieces_append (x y : List Piece) : piecesStr (x ++ y) = piecesStr x ++ piecesStr y := by
  induction x with
  | nil => rfl
  | cons p x ih => simp [piecesStr, ih]

/-- the text of the rules: only the number of "a" depends on where the first counter begins -/
theorem machine_text (P : List Instr) (tail : List Expr) : ∃ pre post : Str, ∀ a, printRules (machineRules P a tail).entries = pre ++ (List.replicate a 'a' ++ post) := by
  have lit : ∀ a, (litOf (Moment.text ⟨0, a, 0⟩)).str = c!"\"s" ++ (List.replicate a 'a' ++ c!"#\"") := by
    intro a
    simp only [litOf, Lit.str, Moment.text, List.map_append, pieces_append, pieces_as]
    simp [piecesStr, pieceOf, Piece.str]
  refine ⟨c!"main = !(!\"s", c!"#\") run" ++ ((tailL tail).str ++ (c!"\n" ++ (defsE c!"run" (.or (P.zipIdx.map momentExpr ++ [lastExpr P.length])) [
    (c!"as", .or [.and [chr 'a', .ruleName c!"as", chr 'a'], .and [many 'b', chr '#', many 's']]),
    (c!"bs", .or [.and [chr 'b', .ruleName c!"bs", chr 'b'], .and [chr '#', many 's', many 'a']]),
    (c!"loop", .ruleName c!"loop")]).str)), fun a => ?_⟩
  simp only [machineRules, printRules]
  rw [defsE, Defs.str]
  simp only [ruleE, Def.str, altE, look, seqL, tailL, asItem, asAtom, only, Alt.str, Seq.str, Item.str, Atom.str, Tail.str, lit]
  simp [gapsStr, Gap.str, Term.gaps, Eol.str]

/-- the numbers of the characters of a text -/
def codesOf (s : Str) : List Nat := s.map Char.toNat

theorem textOf_codesOf (s : Str) : textOf (codesOf s) = s := by
  simp [textOf, codesOf, Function.comp_def]

/-- the PEG text of a machine that begins with `2 ^ n` -/
theorem machine_reads {P : List Instr} (hP : P ≠ []) {tail : List Expr} (ht : ∀ e ∈ tail, PegExpr e) :
    ∃ f : Nat → List Nat, Computable f ∧ ∀ n, ∃ R, rulesFromPeg (textOf (f n)) = .ok R ∧ ∀ s, parse s R = parse s (machineRules P (2 ^ n) tail) := by
  obtain ⟨pre, post, h⟩ := machine_text P tail
  have pow : Primrec fun n : Nat => 2 ^ n :=
    (Primrec.nat_rec' Primrec.id (Primrec.const 1) (h := fun _ p => 2 * p.2) (Primrec.nat_mul.comp (Primrec.const 2) (Primrec.snd.comp Primrec.snd)).to₂).of_eq fun n => by
      show Nat.rec 1 (fun _ p => 2 * p) n = 2 ^ n
      induction n with
      | zero => rfl
      | succ n ih => rw [Nat.pow_succ, Nat.mul_comm, ← ih]
  have reps : Primrec fun n : Nat => (List.range (2 ^ n)).map fun _ => (97 : Nat) :=
    Primrec.list_map (Primrec.list_range.comp pow) (Primrec.const 97).to₂
  refine ⟨fun n => codesOf pre ++ ((List.range (2 ^ n)).map (fun _ => 97) ++ codesOf post),
    (Primrec.list_append.comp (Primrec.const _) (Primrec.list_append.comp reps (Primrec.const _))).to_comp, fun n => ?_⟩
  have e : textOf (codesOf pre ++ ((List.range (2 ^ n)).map (fun _ => 97) ++ codesOf post)) = printRules (machineRules P (2 ^ n) tail).entries := by
    rw [h]
    have h1 := textOf_codesOf pre
    have h2 := textOf_codesOf post
    simp only [textOf] at *
    rw [List.map_append, List.map_append, h1, h2, List.map_map]
    congr 2
    rw [show ((Char.ofNat ∘ fun _ => 97) : Nat → Char) = fun _ => 'a' from rfl, List.map_const', List.length_range]
  obtain ⟨R, h1, _, h2⟩ := C33_round_trip_set (R := machineRules P (2 ^ n) tail) (by simp [machineRules]) (by unfold UniqueKeys; simp [machineRules]) (machine_notation hP _ ht)
  exact ⟨R, by rw [e]; exact h1, h2⟩

theorem rePred_of {α β : Type} [Primcodable α] [Primcodable β] {p : α → Prop} {q : β → Prop} {f : α → β} (hf : Computable f) (h : ∀ a, p a ↔ q (f a))
    (hq : REPred q) : REPred p := by
  have := Partrec.comp hq hf
  refine this.of_eq fun a => ?_
  show (Part.assert (q (f a)) fun _ => Part.some ()) = Part.assert (p a) fun _ => Part.some ()
  rw [show q (f a) = p a from propext (h a).symm]

/-- what is as hard as not to halt cannot be listed -/
theorem not_listable {β : Type} [Primcodable β] {q : β → Prop}
    (h : ∀ P : List Instr, P ≠ [] → ∃ f : Nat → β, Computable f ∧ ∀ n, q (f n) ↔ ¬ HaltsFrom P ⟨0, 2 ^ n, 0⟩) : ¬ REPred q := by
  intro hq
  obtain ⟨P, hP, g, hg, h1⟩ := minsky
  obtain ⟨f, hf, h2⟩ := h P hP
  refine ComputablePred.halting_problem_not_re 0 (rePred_of (hf.comp hg) (fun c => ?_) hq)
  exact (not_congr (h1 c)).trans (h2 (g c)).symm

/-! ### C78 -/

theorem acceptsSome_machine (P : List Instr) (hP : P ≠ []) : ∃ f : Nat → List Nat, Computable f ∧ ∀ n,
    (AcceptsSome (f n) ↔ HaltsFrom P ⟨0, 2 ^ n, 0⟩) ∧ (AcceptsNone (f n) ↔ ¬ HaltsFrom P ⟨0, 2 ^ n, 0⟩) := by
  obtain ⟨f, hf, h⟩ := machine_reads hP (tail := []) (by simp)
  refine ⟨f, hf, fun n => ?_⟩
  obtain ⟨R, h1, h2⟩ := h n
  have h3 : (∃ s t, parse s R = .ok t) ↔ HaltsFrom P ⟨0, 2 ^ n, 0⟩ := by
    simp only [h2]
    exact (C75_empty P (2 ^ n)).1
  constructor
  · rw [← h3]
    constructor
    · rintro ⟨R', h4, h5⟩
      rw [h1] at h4
      cases h4
      exact h5
    · exact fun h => ⟨R, h1, h⟩
  · rw [← h3]
    constructor
    · rintro ⟨R', h4, h5⟩ ⟨s, t, h6⟩
      rw [h1] at h4
      cases h4
      exact h5 s t h6
    · exact fun h => ⟨R, h1, fun s t h4 => h ⟨s, t, h4⟩⟩

/-- **C78**: it cannot be computed from a PEG text whether its rules accept any text at all. -/
theorem C78_accepts_some : ¬ ComputablePred AcceptsSome := by
  intro h
  obtain ⟨P, hP, g, hg, h1⟩ := minsky
  obtain ⟨f, hf, h2⟩ := acceptsSome_machine P hP
  refine ComputablePred.halting_problem 0 (ComputablePred.computable_of_manyOneReducible ⟨fun c => f (g c), hf.comp hg, fun c => ?_⟩ h)
  exact (h1 c).trans (h2 (g c)).1.symm

/-- **C78**: no procedure lists the PEG texts whose rules accept nothing. -/
theorem C78_accepts_none : ¬ REPred AcceptsNone :=
  not_listable fun P hP => by
    obtain ⟨f, hf, h⟩ := acceptsSome_machine P hP
    exact ⟨f, hf, fun n => (h n).2⟩

/-- **C78**: no procedure lists the PEG texts with whose rules `parse` returns on every ASCII text. -/
theorem C78_always_returns : ¬ REPred AlwaysReturns :=
  not_listable fun P hP => by
    obtain ⟨f, hf, h⟩ := machine_reads hP (tail := [.ruleName c!"loop"]) (by simpa using PegExpr.ref valid_loop)
    refine ⟨f, hf, fun n => ?_⟩
    obtain ⟨R, h1, h2⟩ := h n
    rw [← C75_returns P (2 ^ n)]
    constructor
    · rintro ⟨R', h4, h5⟩ s ha
      rw [h1] at h4
      cases h4
      have := h5 s ha
      rwa [h2] at this
    · exact fun h => ⟨R, h1, fun s ha => by rw [h2]; exact h s ha⟩

/-- **C78**: so every check of PEG texts that lets through only rules with which `parse` returns, such as the one of C12, rejects some with
which `parse` returns on every ASCII text. -/
theorem C78_no_exact_check (C : List Nat → Prop) (hC : ComputablePred C) (hs : ∀ w, C w → AlwaysReturns w) : ∃ w, AlwaysReturns w ∧ ¬ C w := by
  by_contra hn
  refine C78_always_returns (hC.to_re.of_eq fun w => ⟨hs w, fun h => ?_⟩)
  by_contra hc
  exact hn ⟨w, h, hc⟩

/-- nothing follows the end -/
theorem none_text : rulesFromPeg c!"main = !. .\n" = .ok ⟨[(c!"main", .and [.not (.simple .dot), .simple .dot])]⟩ :=
  C33_round_trip (rs := [(c!"main", .and [.not (.simple .dot), .simple .dot])]) (by simp) (by simpa using ⟨validName_main, peg_and (.not .dot) .dot (by simp)⟩)

theorem none_accepts (s : Str) (t : Node) : parse s ⟨[(c!"main", .and [.not (.simple .dot), .simple .dot])]⟩ ≠ .ok t := by
  intro h
  have ha := C17_ok_only_on_ascii h
  obtain ⟨ns, h⟩ := (accepted_iff ha).1 ⟨t, h⟩
  cases h with
  | call_ok hg h =>
    cases hg
    obtain ⟨q, n1, n2, h2, h3, _⟩ := inv_and h
    cases h2 with
    | not_fail h2 =>
      obtain ⟨q', n3, n4, h4, h5, _⟩ := inv_and h3
      cases peg_det h2 h4
    | not_crit h2 =>
      obtain ⟨q', n3, n4, h4, h5, _⟩ := inv_and h3
      cases peg_det h2 h4

/-- **C78**: no procedure lists the pairs of PEG texts whose rules accept the same texts. -/
theorem C78_accept_same : ¬ REPred AcceptSame := by
  intro h
  refine C78_accepts_none (rePred_of (f := fun w => (w, codesOf c!"main = !. .\n")) (Computable.pair .id (.const _)) (fun w => ?_) h)
  constructor
  · rintro ⟨R, h1, h2⟩
    refine ⟨R, _, h1, by rw [textOf_codesOf]; exact none_text, fun s => ⟨fun ⟨t, ht⟩ => absurd ht (h2 s t), fun ⟨t, ht⟩ => absurd ht (none_accepts s t)⟩⟩
  · rintro ⟨R, R', h1, h2, h3⟩
    rw [textOf_codesOf, none_text] at h2
    cases h2
    refine ⟨R, h1, fun s t ht => ?_⟩
    obtain ⟨t', h'⟩ := (h3 s).1 ⟨t, ht⟩
    exact none_accepts s t' h'

/-- with the rules of some `parse` always returns, and a check that rejects all of them is not exact -/
example : AlwaysReturns (codesOf c!"main = !. .\n") ∧ ∃ w, AlwaysReturns w ∧ ¬ False := by
  refine ⟨⟨_, by rw [textOf_codesOf]; exact none_text, fun s ha => (returns_iff ha).2 ?_⟩,
    C78_no_exact_check (fun _ => False) ⟨fun _ => .isFalse id, by simpa using Computable.const false⟩ fun _ h => h.elim⟩
  cases s with
  | nil => exact ⟨_, .call_fail rfl (.and_tail_fail (.not_fail .dot_end) (.and_fail .dot_end))⟩
  | cons c s => exact ⟨_, .call_fail rfl (.and_fail (.not_ok (.dot_ok c s)))⟩

/-- some PEG texts have rules that accept nothing -/
example : AcceptsNone (codesOf c!"main = !. .\n") := ⟨_, by rw [textOf_codesOf]; exact none_text, none_accepts⟩

/-- and some have rules that accept something -/
example : AcceptsSome (codesOf c!"main = \"a\"\n") :=
  ⟨⟨[(c!"main", .simple (.literal c!"a"))]⟩, by rw [textOf_codesOf]; exact C33_round_trip (rs := [(c!"main", .simple (.literal c!"a"))]) (by simp) (by simpa using ⟨validName_main, peg_chr (c := 'a') (by decide)⟩),
    c!"a", .rule c!"main" [.val c!"a"], parse_of_fuel (f := 20) (by decide +kernel) (by simp)⟩

end DP
