/-
Property C68: what comes before the character that an error points after can be completed.
-/
import Verif.Proofs.Viable
import Verif.Proofs.Decide
import Verif.Props.Report
import Verif.Props.Linear

namespace DP
open Spec

theorem viable_before {A R s e b} (hu : ProductiveIn A (denotes R)) (hb : denotes R c!"main" = some b) (h : parse s R = .err e) :
    ∃ w t, Gen (denotes R) (.ruleName c!"main") (s.take (e.pos.n - 1) ++ w) [t] ∧
      ∀ c ∈ w, A c ∨ c ∈ s := by
  obtain ⟨_, f, hr, hd⟩ := (C47_parse_err_iff s R e).1 h
  have hG : ∀ n e, denotes R n = some e → Rich A (denotes R) e := hu
  have hm : Rich A (denotes R) (.ruleName c!"main") := by
    intro x hx
    cases hx
    obtain ⟨u, ns, hg, ha⟩ := hu _ _ hb _ (.refl _)
    exact ⟨_, _, .call hb hg, ha⟩
  obtain ⟨u, hs, p, v, ns, hg, ha, hp⟩ := rejects_viable hG hm hr
  obtain ⟨pre, hs', hc⟩ := hd.pos
  obtain rfl : u = pre := List.append_cancel_right (hs.symm.trans hs')
  have hn := hc.n
  have ht : ∃ w, p = s.take (e.pos.n - 1) ++ w ∧ ∀ c ∈ w, c ∈ s := by
    rw [hn, hs]
    rcases hp with rfl | ⟨c, rfl⟩
    · refine ⟨u.drop (u.length - 1), ?_, fun c hc => List.mem_append_left _ (List.mem_of_mem_drop hc)⟩
      rw [List.take_append_of_le_length (by omega), List.take_append_drop]
    · refine ⟨[], ?_, by simp⟩
      simp [List.append_assoc]
  obtain ⟨w, hw, hm⟩ := ht
  cases hg with
  | call hg hg' =>
    refine ⟨w ++ v, _, by rw [← List.append_assoc, ← hw]; exact .call hg hg', ?_⟩
    intro c hc
    rcases List.mem_append.1 hc with hc | hc
    · exact .inr (hm c hc)
    · exact .inl (ha c hc)

/-- **C68**: for rules without `error(...)`, missing rules and useless parts, the text before the place of an error, but for its last
character, is the beginning of a text that the rules derive. -/
theorem C68_derived {R : SetOfRules} {s : Str} {e : Error} {b : Expr} (hu : Productive (denotes R))
    (hb : denotes R c!"main" = some b) (h : parse s R = .err e) :
    ∃ w t, Gen (denotes R) (.ruleName c!"main") (s.take (e.pos.n - 1) ++ w) [t] := by
  have hu' : ProductiveIn (fun _ => True) (denotes R) := fun n e hg x hx => by
    obtain ⟨u, ns, h⟩ := hu n e hg x hx
    exact ⟨u, ns, h, fun _ _ => trivial⟩
  obtain ⟨w, t, hg, _⟩ := viable_before hu' hb h
  exact ⟨w, t, hg⟩

/-- **C68**: for rules that are LL(1) it is the beginning of a text that is accepted. -/
theorem C68_accepted {R : SetOfRules} {s : Str} {e : Error} {b : Expr} (hw : WellFormed (denotes R))
    (hp : ∀ n e, denotes R n = some e → Plain (denotes R) e) (hl : LL1 (denotes R))
    (hu : ProductiveIn (fun c => c.toNat < 128) (denotes R)) (hb : denotes R c!"main" = some b)
    (ha : Ascii s) (h : parse s R = .err e) :
    ∃ w t, parse (s.take (e.pos.n - 1) ++ w) R = .ok t := by
  obtain ⟨w, t, hg, hc⟩ := viable_before hu hb h
  refine ⟨w, t, (C63_context_free hw hp hl _ _).2 ⟨?_, hg⟩⟩
  intro c hm
  rcases List.mem_append.1 hm with hm | hm
  · exact ha c (List.mem_of_mem_take hm)
  · rcases hc c hm with h | h
    · exact h
    · exact ha c h

/-- **C68**: so an error of LL(1) rules does not point beyond the first character that is wrong: if no accepted text begins with the
first `k` characters of the text, then the place of the error is not after them. -/
theorem C68_not_late {R : SetOfRules} {s : Str} {e : Error} {b : Expr} (hw : WellFormed (denotes R))
    (hp : ∀ n e, denotes R n = some e → Plain (denotes R) e) (hl : LL1 (denotes R))
    (hu : ProductiveIn (fun c => c.toNat < 128) (denotes R)) (hb : denotes R c!"main" = some b)
    (ha : Ascii s) (h : parse s R = .err e) {k : Nat} (hk : ∀ w t, parse (s.take k ++ w) R ≠ .ok t) : e.pos.n ≤ k := by
  refine Nat.le_of_not_lt fun hlt => ?_
  obtain ⟨w, t, h1⟩ := C68_accepted hw hp hl hu hb ha h
  have h2 : s.take (e.pos.n - 1) = s.take k ++ (s.take (e.pos.n - 1)).drop k := by
    have := List.take_append_drop k (s.take (e.pos.n - 1))
    rw [List.take_take, Nat.min_eq_left (by omega)] at this
    exact this.symm
  rw [h2, List.append_assoc] at h1
  exact hk _ t h1

theorem productiveIn_of_check {R : SetOfRules} (f : Nat)
    (h : R.entries.all (fun ne => (parts (effective ne.2)).all fun x =>
      (sample R f x).any fun un => un.1.all fun c => c.toNat < 128) = true) :
    ProductiveIn (fun c => c.toNat < 128) (denotes R) := by
  intro n e hg x hx
  obtain ⟨e', h1, rfl⟩ := Option.map_eq_some_iff.1 hg
  have h2 := List.all_eq_true.1 h (n, e') (mem_of_lookup h1)
  have h3 := List.all_eq_true.1 h2 x (parts_of_sub hx)
  obtain ⟨⟨u, ns⟩, h4, h5⟩ := (Option.any_eq_true _ _).1 h3
  exact ⟨u, ns, (sample_gen R f).1 _ _ _ h4, fun c hc => of_decide_eq_true (List.all_eq_true.1 h5 c hc)⟩

/-- balanced parentheses: whatever the text, what comes before the character that the error points after can be completed to a
text that is accepted -/
example {s : Str} {e : Error} (ha : Ascii s) (h : parse s exDyck = .err e) : ∃ w t, parse (s.take (e.pos.n - 1) ++ w) exDyck = .ok t :=
  C68_accepted dyck_wf dyck_ll1.1 dyck_ll1.2 (productiveIn_of_check 20 (by decide +kernel)) rfl ha h

/-- a closing parenthesis too many: "()" can be completed, "())" cannot, and the error is at 3 -/
example : parse c!"())" exDyck = .err ⟨⟨3, 0, 3, 0⟩, .literal c!"(", c!"())", [], [], .normal⟩ :=
  parse_of_fuel (f := 60) (by decide +kernel) (by simp)

/-- `main = ("a" "b")* "c"` -/
def exPairs : SetOfRules :=
  ⟨[(c!"main", .and [.rep (.and [.simple (.literal c!"a"), .simple (.literal c!"b")]) 0 none, .simple (.literal c!"c")])]⟩

/-- An error can point before the first character that is wrong: with `main = ("a" "b")* "c"` the error of "abax" says that "c" is
expected instead of the second "a", although "aba" begins the accepted text "ababc". -/
theorem C68_early : parse c!"abax" exPairs = .err ⟨⟨3, 0, 3, 0⟩, .literal c!"c", c!"aba", c!"x", [], .normal⟩ ∧
    ∃ w t, parse (c!"abax".take 3 ++ w) exPairs = .ok t :=
  ⟨parse_of_fuel (f := 60) (by decide +kernel) (by simp), c!"bc",
    .rule c!"main" [.val c!"a", .val c!"b", .val c!"a", .val c!"b", .val c!"c"], parse_of_fuel (f := 60) (by decide +kernel) (by simp)⟩

/-- With useless parts it is not so: `main = "a" main / "a" main` derives nothing, so nothing can be completed. -/
theorem C68_useless : parse c!"a" exFutile = .err ⟨⟨1, 0, 1, 0⟩, .literal c!"a", c!"a", [], [], .normal⟩ ∧
    ∀ w t, ¬ Gen (denotes exFutile) (.ruleName c!"main") (c!"a".take 0 ++ w) [t] :=
  ⟨parse_of_fuel (f := 60) (by decide +kernel) (by simp), fun _ _ h => (futile_gen h).1 rfl⟩

end DP
