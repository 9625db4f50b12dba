/-
Property C62: rules added at execution time.
-/
import Verif.Proofs.Extend
import Verif.Proofs.ReadmeRun
import Verif.Proofs.Decide
import Verif.Props.Readme

namespace DP
open Spec Spec.Syntax Spec.Readme

/-- **C62**: adding rules changes no answer of a parse that does not miss a rule. `R'` has all the rules of
`R` and maybe others, and every rule that a negation of `R` leads to is in `R`: then on every text the answers
of both are the same, unless the one of `R` is the critical error about a rule that it does not have (or a
panic). The same for `parse_debug`. -/
theorem C62_more_rules {R R' : SetOfRules} (hE : ∀ n e, Reach (grammar R) n → grammar R n = some e → grammar R' n = some e)
    (hN : ∀ n e b, Reach (grammar R) n → grammar R n = some e → Sub (.not b) e → Covered R b) (s : Str) :
    (parse s R = .panic ∨ parse s R' = parse s R ∨
      ∃ e n, parse s R = .err e ∧ e.priority = .critical ∧ e.descr = .missingRule n ∧ grammar R n = none) ∧
    (parseDebug s R = .panic ∨ parseDebug s R' = parseDebug s R ∨
      ∃ e n, parseDebug s R = .err e ∧ e.priority = .critical ∧ e.descr = .missingRule n ∧ grammar R n = none) := by
  constructor
  · rcases extend_limit (H := fun f => parseWithDebugF f s R' false) (parseWithDebugF_step s R false) missed_diverge
      (fun f => extend_fuel hE hN f s false) with h | h | h
    · exact .inr (.inl h)
    · exact .inl h
    · exact .inr (.inr h)
  · rcases extend_limit (H := fun f => parseWithDebugF f s R' true) (parseWithDebugF_step s R true) missed_diverge
      (fun f => extend_fuel hE hN f s true) with h | h | h
    · exact .inr (.inl h)
    · exact .inl h
    · exact .inr (.inr h)

/-- **C62**: so a text that is accepted stays accepted, with the same tree, and an error that is not about a
missing rule stays as it is. -/
theorem C62_stays {R R' : SetOfRules} (hE : ∀ n e, Reach (grammar R) n → grammar R n = some e → grammar R' n = some e)
    (hN : ∀ n e b, Reach (grammar R) n → grammar R n = some e → Sub (.not b) e → Covered R b) (s : Str) :
    (∀ t, parse s R = .ok t → parse s R' = .ok t) ∧
    ∀ e, parse s R = .err e → (∀ n, e.descr ≠ .missingRule n) → parse s R' = .err e := by
  constructor
  · intro t h
    rcases (C62_more_rules hE hN s).1 with h1 | h1 | ⟨e, n, h1, _⟩
    · rw [h] at h1; cases h1
    · rw [h1, h]
    · rw [h] at h1; cases h1
  · intro e h hd
    rcases (C62_more_rules hE hN s).1 with h1 | h1 | ⟨e', n, h1, _, h2, _⟩
    · rw [h] at h1; cases h1
    · rw [h1, h]
    · rw [h] at h1
      cases h1
      exact absurd h2 (hd n)

/-- `main = !x .` without and with a rule for `x` -/
def exNegated : SetOfRules := ⟨[(c!"main", .and [.not (.ruleName c!"x"), .simple .dot])]⟩

/-- **C62**: the condition on negations is needed: a negation takes a missing rule for a mismatch. -/
theorem C62_negation :
    parse c!"a" exNegated = .ok (.rule c!"main" [.val c!"a"]) ∧
    parse c!"a" (exNegated.add c!"x" (.simple (.literal c!"a"))) = .err ⟨⟨0, 0, 0, 0⟩, .not, [], c!"a", [], .normal⟩ :=
  ⟨parse_of_fuel (f := 20) (by decide +kernel) (by simp), parse_of_fuel (f := 20) (by decide +kernel) (by simp)⟩

/-! ### The example of README.md:360-398 -/

/-- `rules!{"main" => and!{rep!(lit!("a"), 1, 5), ref_rule!("rule2")}}` -/
def asRules : SetOfRules :=
  .ofList [(c!"main", .and [.rep (.simple (.literal c!"a")) 1 (some 5), .ruleName c!"rule2"])]

/-- `n` is the number of leading `a`s, at most `k` -/
def LeadingAs (k n : Nat) (r : Str) : Prop := n = k ∨ (n < k ∧ r.head? ≠ some 'a')

theorem leading_split : ∀ (k : Nat) (s : Str), ∃ n r, s = List.replicate n 'a' ++ r ∧ LeadingAs k n r
  | 0, s => ⟨0, s, rfl, .inl rfl⟩
  | k + 1, [] => ⟨0, [], rfl, .inr ⟨by omega, by simp⟩⟩
  | k + 1, c :: s => by
    by_cases hc : c = 'a'
    · obtain ⟨n, r, h1, h2⟩ := leading_split k s
      refine ⟨n + 1, r, by rw [h1, hc]; rfl, ?_⟩
      rcases h2 with h2 | h2
      · exact .inl (by omega)
      · exact .inr ⟨by omega, h2.2⟩
    · exact ⟨0, c :: s, rfl, .inr ⟨by omega, by simpa using hc⟩⟩

theorem rep_as {G} : ∀ (k mn n : Nat) (r : Str), LeadingAs k n r → mn ≤ n →
    Peg G (.rep (.simple (.literal c!"a")) mn (some k)) (List.replicate n 'a' ++ r) (.ok r (List.replicate n (.val c!"a")))
  | 0, mn, n, r, h, _ => by
    have : n = 0 := by rcases h with h | h <;> omega
    subst this
    exact .rep_full _ _ _
  | k + 1, mn, 0, r, h, hm => by
    have : mn = 0 := by omega
    subst this
    refine .rep_stop (by simp) (.lit_fail _ _ ?_)
    rintro ⟨q, rfl⟩
    rcases h with h | h
    · omega
    · exact h.2 rfl
  | k + 1, mn, n + 1, r, h, hm => by
    have h' : LeadingAs k n r := by
      rcases h with h | h
      · exact .inl (by omega)
      · exact .inr ⟨by omega, h.2⟩
    exact .rep_more (by simp) (.lit_ok c!"a" (List.replicate n 'a' ++ r)) (rep_as k (mn - 1) n r h' (by omega))

theorem rep_as_few {G} {k mn : Nat} {r : Str} (h : LeadingAs k 0 r) (hm : 0 < mn) (hk : 0 < k) :
    Peg G (.rep (.simple (.literal c!"a")) mn (some k)) r .fail := by
  refine .rep_few (by simp; omega) hm (.lit_fail _ _ ?_)
  rintro ⟨q, rfl⟩
  rcases h with h | h
  · omega
  · exact h.2 rfl

theorem as_main : denotes asRules c!"main" =
    some (.and [.rep (.simple (.literal c!"a")) 1 (some 5), .ruleName c!"rule2"]) := rfl

theorem as_missing : denotes asRules c!"rule2" = none := rfl

theorem as_added_main : denotes (asRules.add c!"rule2" (.simple (.literal c!"bcd"))) c!"main" =
    some (.and [.rep (.simple (.literal c!"a")) 1 (some 5), .ruleName c!"rule2"]) := rfl

theorem as_added : denotes (asRules.add c!"rule2" (.simple (.literal c!"bcd"))) c!"rule2" =
    some (.simple (.literal c!"bcd")) := rfl

theorem as_ascii (n : Nat) : Ascii (List.replicate n 'a') := fun c hc => by
  rw [List.eq_of_mem_replicate hc]; decide

/-- **C62**: with the rule of README.md added, `parse` accepts one to five `a`s followed by `bcd`. -/
theorem C62_readme_add (s : Str) (t : Node) :
    parse s (asRules.add c!"rule2" (.simple (.literal c!"bcd"))) = .ok t ↔
      ∃ n, 1 ≤ n ∧ n ≤ 5 ∧ s = List.replicate n 'a' ++ c!"bcd" ∧
        t = .rule c!"main" (List.replicate n (.val c!"a") ++ [.rule c!"rule2" [.val c!"bcd"]]) := by
  rw [parse_iff]
  constructor
  · rintro ⟨_, h⟩
    obtain ⟨ns, h0, h1⟩ := inv_call as_added_main h
    obtain ⟨q, a, b, h2, h3, h4⟩ := inv_two h1
    obtain ⟨n, r, rfl, hl⟩ := leading_split 5 s
    have hn : 1 ≤ n := by
      rcases Nat.eq_zero_or_pos n with rfl | hn
      · cases peg_det h2 (rep_as_few hl (by omega) (by omega))
      · exact hn
    cases peg_det h2 (rep_as 5 1 n r hl hn)
    obtain ⟨ms, h5, h6⟩ := inv_call as_added h3
    obtain ⟨h7, h8⟩ := inv_lit h6
    refine ⟨n, hn, by rcases hl with hl | hl <;> omega, by rw [h7]; simp, ?_⟩
    simp only [List.cons.injEq, and_true] at h0
    rw [h0, h4, h5, h8]
  · rintro ⟨n, h1, h2, rfl, rfl⟩
    refine ⟨ascii_two (as_ascii n) (by decide), .call_ok as_added_main (.and_ok (rep_as 5 1 n _ ?_ h1) ?_)⟩
    · by_cases h : n = 5
      · exact .inl h
      · exact .inr ⟨by omega, by decide⟩
    · have := Peg.and_ok (Peg.call_ok as_added (Peg.lit_ok c!"bcd" [])) (Peg.and_nil _)
      simpa using this

/-- **C62**: `merge` with the rule gives the same answers. -/
theorem C62_readme_merge (s : Str) :
    parse s (asRules.merge (.ofList [(c!"rule2", .simple (.literal c!"bcd"))])) =
      parse s (asRules.add c!"rule2" (.simple (.literal c!"bcd"))) := by
  refine (C11_outcome_depends_on_mapping (fun n => ?_) s).1
  rw [asRules, C22_merge (C22_keys_unique.2.2.2 _) (C22_keys_unique.2.2.2 _), C22_add, C22_last_definition_wins,
    C22_last_definition_wins]
  simp only [List.reverse_cons, List.reverse_nil, List.nil_append, lookup_cons', List.lookup_nil]
  split
  · next h => rw [h]; rfl
  · split <;> rfl

/-- **C62**: without the rule no text is accepted; every text that begins with `a` is refused because the rule
is missing, after the first `a`s. -/
theorem C62_readme_missing : (∀ s t, parse s asRules ≠ .ok t) ∧
    ∀ n r, 1 ≤ n → (n = 5 ∨ (n < 5 ∧ r.head? ≠ some 'a')) → Ascii r →
      ∃ e, parse (List.replicate n 'a' ++ r) asRules = .err e ∧ e.priority = .critical ∧
        e.descr = .missingRule c!"rule2" ∧ CoordsOf (List.replicate n 'a') e.pos := by
  have crit : ∀ n r, 1 ≤ n → LeadingAs 5 n r →
      Peg (denotes asRules) (.ruleName c!"main") (List.replicate n 'a' ++ r) (.crit (.missingRule c!"rule2") r) :=
    fun n r h1 h2 => .call_crit as_main (.and_tail_crit (rep_as 5 1 n r h2 h1) (.and_crit (.call_missing as_missing)))
  constructor
  · intro s t h
    have hp := ((parse_iff _ _ _).1 h).2
    obtain ⟨n, r, rfl, hl⟩ := leading_split 5 s
    rcases Nat.eq_zero_or_pos n with rfl | hn
    · cases peg_det hp (.call_fail as_main (.and_fail (rep_as_few hl (by omega) (by omega))))
    · cases peg_det hp (crit n r hn hl)
  · intro n r h1 h2 ha
    obtain ⟨e, h3, h4, h5, pre, h6, h7⟩ := C09_critical_errors_are_final
      (ascii_two (as_ascii n) ha) (hits_iff_crit.2 (crit n r h1 h2))
    rw [← List.append_cancel_right h6] at h7
    exact ⟨e, h3, h4, h5, h7⟩

/-- the text of README.md, before and after -/
example : (∃ e, parse c!"aabcd" asRules = .err e ∧ e.descr = .missingRule c!"rule2" ∧ CoordsOf c!"aa" e.pos) ∧
    ∃ t, parse c!"aabcd" (asRules.add c!"rule2" (.simple (.literal c!"bcd"))) = .ok t := by
  obtain ⟨e, h1, _, h2, h3⟩ := C62_readme_missing.2 2 c!"bcd" (by omega) (.inr ⟨by omega, by decide⟩) (by decide)
  exact ⟨⟨e, h1, h2, h3⟩, _, (C62_readme_add _ _).2 ⟨2, by omega, by omega, rfl, rfl⟩⟩

/-- six `a`s are too many -/
example : ∀ t, parse c!"aaaaaabcd" (asRules.add c!"rule2" (.simple (.literal c!"bcd"))) ≠ .ok t := by
  intro t h
  obtain ⟨n, _, h1, h2, _⟩ := (C62_readme_add _ _).1 h
  have := congrArg List.length h2
  simp at this
  omega

/-- the rules of README.md have no negation, so adding rules cannot change what they accept or refuse for
other reasons than the missing rule -/
example (e : Expr) (s : Str) (x : Error) (h : parse s asRules = .err x) (hx : ∀ n, x.descr ≠ .missingRule n) :
    parse s (asRules.add c!"rule2" e) = .err x := by
  refine (C62_stays (fun n b _ hg => ?_) (fun n b b' _ hg hs => ?_) s).2 x h hx
  · have hn : n ≠ c!"rule2" := by
      rintro rfl
      cases hg
    rw [C22_add, if_neg hn]
    exact hg
  · rw [asRules, C22_last_definition_wins] at hg
    simp only [List.reverse_cons, List.reverse_nil, List.nil_append, lookup_cons', List.lookup_nil] at hg
    split at hg
    · cases hg
      cases hs with
      | and hm hs =>
        simp only [List.mem_cons, List.not_mem_nil, or_false] at hm
        rcases hm with rfl | rfl
        · cases hs with
          | rep hs => cases hs
        · cases hs
    · cases hg

end DP
