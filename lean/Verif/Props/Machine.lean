/-
C59: the numbers of the machine.
-/
import Verif.Proofs.Machine
import Verif.Proofs.Decide
import Verif.Props.PegFront

namespace DP
open Spec

/-! ### C59 -/

/-- **C59**: when `parse` returns (Ok, Err or a panic) it does not overflow: with machine numbers, whatever
they do on overflow, the answer is the one of the model with natural numbers. A Rust text is at most
`isize::MAX` bytes long and the bounds of repetitions are `usize`. -/
theorem C59_exact {U : Usize} {s : Str} {R : SetOfRules} (hs : byteLen s + 1 < U.size) (hR : FitsIn U.size R)
    (hd : parse s R ≠ .diverge) : Machine.parse U s R = parse s R := by
  obtain ⟨f, hf⟩ := fuel_of_parse rfl hd
  have hl := length_le_byteLen s
  have h := Machine.exact_api (U := U) (s := s) (b := false) (by omega) hR (by rw [hf]; exact hd)
  exact limit_of (F := fun f => Machine.parseWithDebugF U f s R false) (Machine.parseWithDebugF_step U s R false)
    (h.trans hf) hd

/-- **C59** for `parse_debug` -/
theorem C59_exact_debug {U : Usize} {s : Str} {R : SetOfRules} (hs : byteLen s + 1 < U.size)
    (hR : FitsIn U.size R) (hd : parseDebug s R ≠ .diverge) : Machine.parseDebug U s R = parseDebug s R := by
  obtain ⟨f, hf⟩ := fuel_of_parseDebug rfl hd
  have hl := length_le_byteLen s
  have h := Machine.exact_api (U := U) (s := s) (b := true) (by omega) hR (by rw [hf]; exact hd)
  exact limit_of (F := fun f => Machine.parseWithDebugF U f s R true) (Machine.parseWithDebugF_step U s R true)
    (h.trans hf) hd

/-- **C59**: with overflow checks (`debug` builds) the answer is the same or a panic, for any text and
rules. -/
theorem C59_checked (size : Nat) (s : Str) (R : SetOfRules) :
    (Machine.parse (.checked size) s R = parse s R ∨ Machine.parse (.checked size) s R = .panic) ∧
    (Machine.parseDebug (.checked size) s R = parseDebug s R ∨ Machine.parseDebug (.checked size) s R = .panic) := by
  have hU : Machine.Checked (.checked size) := by
    intro n
    by_cases h : n + 1 < size
    · exact .inr (by simp [Usize.checked, h])
    · exact .inl (by simp [Usize.checked, h])
  have main : ∀ b, (limit fun f => Machine.parseWithDebugF (.checked size) f s R b) =
      (limit fun f => parseWithDebugF f s R b) ∨
      (limit fun f => Machine.parseWithDebugF (.checked size) f s R b) = .panic := by
    intro b
    rcases limit_elim (fun f => Machine.parseWithDebugF (.checked size) f s R b) with ⟨h1, h2⟩ | ⟨n, h1, h2⟩
    · left
      rw [h1]
      symm
      rw [limit_diverge_iff]
      intro f
      rcases Machine.checked_api hU s R f b with h | h
      · rw [h2] at h; cases h
      · rw [← h]; exact h2 f
    · rcases Machine.checked_api hU s R n b with h | h
      · right; rw [← h1]; exact h
      · left
        rw [← h1]
        exact (limit_of (F := fun f => parseWithDebugF f s R b) (parseWithDebugF_step s R b) h.symm
          (by rw [h1]; exact h2)).symm
  exact ⟨main false, main true⟩

/-- **C59** on a 64-bit machine, with and without overflow checks: on every text Rust can hold, rules that
are well-formed (C12) and whose bounds are `usize` are parsed exactly as in the model. -/
theorem C59_well_formed {s : Str} {R : SetOfRules} (hs : byteLen s < 2 ^ 63) (hR : FitsIn (2 ^ 64) R)
    (hw : WellFormed (denotes R)) :
    Machine.parse (.checked (2 ^ 64)) s R = parse s R ∧ Machine.parse (.wrapping (2 ^ 64)) s R = parse s R ∧
    Machine.parseDebug (.checked (2 ^ 64)) s R = parseDebug s R ∧
    Machine.parseDebug (.wrapping (2 ^ 64)) s R = parseDebug s R := by
  obtain ⟨h1, h2⟩ := C12_well_formed_grammars_terminate hw s
  have hs' : byteLen s + 1 < 2 ^ 64 := by omega
  exact ⟨C59_exact hs' hR h1, C59_exact hs' hR h1, C59_exact_debug hs' hR h2, C59_exact_debug hs' hR h2⟩

example : Machine.parse (.wrapping (2 ^ 64)) c!"((a)b)" exNested = parse c!"((a)b)" exNested :=
  (C59_well_formed (by decide) (fitsIn_of_check (by decide))
    (wf_of_check (nul := [c!"ws"]) (ranks := [c!"ws", c!"expr", c!"main"]) (by decide +kernel))).2.1

/-- **C59** for `rules_from_peg`: reading a PEG text does not overflow. -/
theorem C59_peg_text {U : Usize} {s : Str} (hs : byteLen s + 1 < U.size) (h2 : 2 ≤ U.size) :
    Machine.parse U s PegRules.parsePeg = parse s PegRules.parsePeg :=
  C59_exact hs (fitsIn_mono (fitsIn_of_check (R := PegRules.parsePeg) (size := 2) (by decide +kernel)) h2)
    (C12_well_formed_grammars_terminate pegWellFormed s).1

/-! The conditions are needed. -/

/-- `main = ""{0,0}`: a maximum of 0 is none (C06), so the repetition goes on for ever -/
def exZero : SetOfRules := ⟨[(c!"main", .rep (.simple (.literal [])) 0 (some 0))]⟩

theorem exZero_loop {size : Nat} : ∀ d k st acc, k + d + 1 = size →
    Machine.parseRepeat (.wrapping size) exZero (d + 2) (.simple (.literal [])) 0 (some 0) st k acc =
      .ok (st, acc ++ List.replicate (d + 1) (.val []))
  | 0, k, st, acc, h => by
    have : (k + 1) % size = 0 := by rw [show k + 1 = size by omega]; exact Nat.mod_self _
    rw [Machine.parseRepeat, Machine.parseExpr]
    simp [Machine.parseAtomAsExpr, Machine.parseAtom, Machine.parseLiteral, Machine.parseLiteralLoop,
      Machine.touchMaxBound, Usize.wrapping, this]
  | d + 1, k, st, acc, h => by
    have : (k + 1) % size = k + 1 := Nat.mod_eq_of_lt (a := k + 1) (by omega)
    rw [Machine.parseRepeat, Machine.parseExpr]
    have ih := exZero_loop (size := size) d (k + 1) st (acc ++ [.val []]) (by omega)
    simp only [Usize.wrapping] at ih
    simp only [Machine.parseAtomAsExpr, Machine.parseAtom, Machine.parseLiteral, Machine.parseLiteralLoop,
      Machine.touchMaxBound, Usize.wrapping, this]
    simp only [show ((k + 1 : Nat) == 0) = false by simp]
    rw [ih]
    simp [List.replicate_succ]

/-- **C59**: a repetition that never ends in the model ends without overflow checks (`release` builds) if
its maximum is 0: the counter comes round to it, after as many iterations as there are numbers. -/
theorem C59_wraps (size : Nat) (h : 0 < size) :
    parse [] exZero = .diverge ∧
    Machine.parse (.wrapping size) [] exZero = .ok (.rule c!"main" (List.replicate size (.val []))) := by
  constructor
  · exact C13_empty_repetition_diverges (by decide) (.body rfl (.refl _ _)) (.lit_ok [] [])
  · obtain ⟨d, rfl⟩ : ∃ d, size = d + 1 := ⟨size - 1, by omega⟩
    refine limit_of (F := fun f => Machine.parseWithDebugF (.wrapping (d + 1)) f [] exZero false)
      (Machine.parseWithDebugF_step _ _ _ _) (n := d + 4) ?_ (by simp)
    have h1 := exZero_loop (size := d + 1) d 0 (Status.init []) [] (by omega)
    have h2 : exZero.get c!"main" = some (.rep (.simple (.literal [])) 0 (some 0)) := rfl
    simp only [Machine.parseWithDebugF, Bool.false_eq_true, if_false]
    rw [Machine.parseRuleName]
    have h3 : (if (Status.init []).traceRules = true then (Status.init []).pushRule (c!"r:" ++ c!"main")
      else Status.init []) = Status.init [] := rfl
    simp only [h3, h2]
    rw [Machine.parseExpr, h1]
    rfl

/-- with overflow checks it panics -/
example : Machine.parse (.checked 8) [] exZero = .panic :=
  limit_of (F := fun f => Machine.parseWithDebugF (.checked 8) f [] exZero false)
    (Machine.parseWithDebugF_step _ _ _ _) (n := 20) (by decide +kernel) (by simp)

/-- the text must be shorter than the numbers go -/
example : parse c!"abcd" ⟨[(c!"main", .rep (.simple .dot) 0 none)]⟩ =
      .ok (.rule c!"main" [.val c!"a", .val c!"b", .val c!"c", .val c!"d"]) ∧
    Machine.parse (.checked 4) c!"abcd" ⟨[(c!"main", .rep (.simple .dot) 0 none)]⟩ = .panic :=
  ⟨parse_of_fuel (f := 20) (by decide +kernel) (by simp),
    limit_of (F := fun f => Machine.parseWithDebugF (.checked 4) f c!"abcd" _ false)
      (Machine.parseWithDebugF_step _ _ _ _) (n := 20) (by decide +kernel) (by simp)⟩

/-- and so must the maximum of a repetition -/
example : parse c!"" ⟨[(c!"main", .rep (.simple (.literal c!"")) 0 (some 4))]⟩ =
      .ok (.rule c!"main" [.val c!"", .val c!"", .val c!"", .val c!""]) ∧
    Machine.parse (.checked 4) c!"" ⟨[(c!"main", .rep (.simple (.literal c!"")) 0 (some 4))]⟩ = .panic :=
  ⟨parse_of_fuel (f := 20) (by decide +kernel) (by simp),
    limit_of (F := fun f => Machine.parseWithDebugF (.checked 4) f c!"" _ false)
      (Machine.parseWithDebugF_step _ _ _ _) (n := 20) (by decide +kernel) (by simp)⟩

end DP
