/-
Rules, modules and documents of the concrete syntax, read by the built-in grammar and by the consumers.
-/
import Verif.Proofs.SynExpr
import Verif.Props.Rules

namespace DP
open Spec PegRules Spec.Syntax Peg

/-! ### What follows a definition -/

/-- the end of a list of definitions -/
def DefsEnd (r : Str) : Prop := ∀ c, r.head? = some c → c = '}'

theorem DefsEnd.noGap {r} (h : DefsEnd r) : NoGap r := by
  rintro c t rfl
  rw [h c rfl]
  exact ⟨by decide, by decide, by decide, fun e => absurd e (by decide)⟩

def DefFollow (r : Str) : Prop := DefsEnd r ∨ ∃ c t, r = c :: t ∧ Start c ∧ c ≠ '(' ∧ ∃ q ns, Peg GP eHead r (.ok q ns)

theorem DefFollow.noGap {r} (h : DefFollow r) : NoGap r := by
  rcases h with h | ⟨c, t, rfl, h, _⟩
  · exact h.noGap
  · exact h.noGap

theorem term_gaps_ne (t : Term) : t.gaps ≠ [] := by simp [Term.gaps]

theorem term_end {t : Term} {r : Str} (h : t.OK) (hr : DefFollow r) : AltEnd (gapsStr t.gaps ++ r) := by
  refine ⟨⟨itemFollow_gaps _ _ fun e => absurd e (term_gaps_ne t), t.gaps, r, rfl, h.1, hr.noGap, ?_, ?_⟩, t.gaps, r, rfl, h.1, hr.noGap, ?_⟩
  · intro c hc
    rcases hr with hr | ⟨d, u, rfl, hd, hp, _⟩
    · rw [hr c hc]; decide
    · cases hc
      exact ⟨(start_def hd).1, (start_def hd).2.1, hp⟩
  · rcases hr with hr | ⟨d, u, rfl, hd, _, hq⟩
    · refine Or.inl fun c hc => ?_
      rw [hr c hc]
      decide
    · exact Or.inr hq
  · intro hc
    rcases hr with hr | ⟨d, u, rfl, hd, _⟩
    · exact absurd (hr _ hc) (by decide)
    · cases hc
      exact absurd hd (by decide)

theorem symbol_name {n} (h : ValidSymbol n) : ValidName n := ⟨[], n, [], Or.inl rfl, h, .nil, by simp⟩

theorem nameEnd_gaps (gs : Gaps) {c : Char} (hc : c = '=' ∨ c = '{') (r : Str) : NameEnd (gapsStr gs ++ c :: r) := by
  have key : ∀ d u, d = ' ' ∨ d = '\n' ∨ d = '\r' ∨ d = '/' ∨ d = '=' ∨ d = '{' → NameEnd (d :: u) := by
    intro d u hd
    constructor
    · intro e he
      cases he
      rcases hd with rfl | rfl | rfl | rfl | rfl | rfl <;> decide
    · intro t he
      cases he
      exact absurd hd (by decide)
  cases gs with
  | nil => exact key _ _ (by rcases hc with h | h <;> simp [h])
  | cons g gs =>
    obtain ⟨d, t, e, hd⟩ := gap_start g
    rw [gapsStr, e]
    exact key _ _ (by rcases hd with h | h | h | h <;> simp [h])

theorem def_start {d : Def} (h : d.OK) (r : Str) : ∃ c t, d.str ++ r = c :: t ∧ (WordChar c ∨ c = '.') := by
  cases d with
  | rule n g1 g2 e t =>
    rw [Def.OK] at h
    obtain ⟨c, u, rfl, hc⟩ := name_start h.1
    exact ⟨c, _, by rw [Def.str]; rfl, hc⟩
  | module n g1 g2 ds t =>
    rw [Def.OK] at h
    obtain ⟨c, u, rfl, hc⟩ := symbol_start h.1
    exact ⟨c, _, by rw [Def.str]; rfl, Or.inl hc⟩

theorem word_start {c : Char} (h : WordChar c ∨ c = '.') : Start c ∧ c ≠ '(' := by
  constructor
  · rcases h with h | rfl
    · exact Or.inl h
    · decide
  · rintro rfl
    exact absurd h (by decide)

theorem def_head {d : Def} (h : d.OK) (r : Str) : ∃ q ns, Peg GP eHead (d.str ++ r) (.ok q ns) := by
  cases d with
  | rule n g1 g2 e t =>
    rw [Def.OK] at h
    have e0 : (Def.rule n g1 g2 e t).str ++ r = n ++ (gapsStr g1 ++ '=' :: (gapsStr g2 ++ (e.str ++ (gapsStr t.gaps ++ r)))) := by simp [Def.str]
    obtain ⟨n1, h1, _⟩ := name_reads h.1 (nameEnd_gaps g1 (c := '=') (by simp) (gapsStr g2 ++ (e.str ++ (gapsStr t.gaps ++ r))))
    obtain ⟨n2, h2⟩ := ws_ok (r := '=' :: (gapsStr g2 ++ (e.str ++ (gapsStr t.gaps ++ r)))) h.2.1 (NoGap.of (by decide))
    rw [e0]
    exact ⟨_, _, andC h1 (andC h2 (and1 (.or_ok lit1)))⟩
  | module n g1 g2 ds t =>
    rw [Def.OK] at h
    have e0 : (Def.module n g1 g2 ds t).str ++ r = n ++ (gapsStr g1 ++ '{' :: (gapsStr g2 ++ (ds.str ++ '}' :: (gapsStr t.gaps ++ r)))) := by simp [Def.str]
    obtain ⟨n1, h1, _⟩ := name_reads (symbol_name h.1) (nameEnd_gaps g1 (c := '{') (by simp) (gapsStr g2 ++ (ds.str ++ '}' :: (gapsStr t.gaps ++ r))))
    obtain ⟨n2, h2⟩ := ws_ok (r := '{' :: (gapsStr g2 ++ (ds.str ++ '}' :: (gapsStr t.gaps ++ r)))) h.2.1 (NoGap.of (by decide))
    rw [e0]
    exact ⟨_, _, andC h1 (andC h2 (and1 (.or_next (litF (by simp)) (.or_ok lit1))))⟩

theorem def_follow {d : Def} (h : d.OK) (r : Str) : DefFollow (d.str ++ r) := by
  obtain ⟨c, t, e, hc⟩ := def_start h r
  exact Or.inr ⟨c, t, e, (word_start hc).1, (word_start hc).2, def_head h r⟩

theorem defs_start {ds : Defs} (h : ds.OK) (r : Str) : ∃ c t, ds.str ++ r = c :: t ∧ Start c := by
  cases ds with
  | one d =>
    rw [Defs.OK] at h
    obtain ⟨c, t, e, hc⟩ := def_start h r
    exact ⟨c, t, by rw [Defs.str]; exact e, (word_start hc).1⟩
  | cons d ds =>
    rw [Defs.OK] at h
    obtain ⟨c, t, e, hc⟩ := def_start h.1 (ds.str ++ r)
    exact ⟨c, t, by rw [Defs.str, List.append_assoc]; exact e, (word_start hc).1⟩

/-! ### The rules denoted -/

mutual
/-- the set of rules built for a definition -/
def defRules (R : SetOfRules) : Def → Option SetOfRules
  | .rule n _ _ e _ => e.denote.map fun es => R.add n (altOf es)
  | .module _ _ _ ds _ => (defsRules SetOfRules.empty ds).map fun S => R.merge S
def defsRules (R : SetOfRules) : Defs → Option SetOfRules
  | .one d => defRules R d
  | .cons d ds => (defRules R d).bind fun R' => defsRules R' ds
end

/-! ### Consumers -/

def RulesRuns (fs : List FNode) (g : SetOfRules → Option SetOfRules) (x : Option Complaint) : Prop :=
  ∃ F, ∀ f, F ≤ f → ∀ R n tail ctx, Gives (g R) x (.endRule n :: tail) ctx (recConsumeRulesOrModules f R (fs ++ .endRule n :: tail) ctx)

/-- one definition, then the rest -/
def DefRuns (fs : List FNode) (g : SetOfRules → Option SetOfRules) (x : Option Complaint) : Prop :=
  ∃ F, ∀ f, F ≤ f → ∀ R rest ctx,
    (∃ R', g R = some R' ∧ x = none ∧ recConsumeRulesOrModules (f + 1) R (fs ++ rest) ctx = recConsumeRulesOrModules f R' rest ctx) ∨
    ∃ p, g R = none ∧ x = some p ∧ recConsumeRulesOrModules (f + 1) R (fs ++ rest) ctx = .err p.error

theorem defRuns_rule {ns : List Node} {o : Option (Str × Expr)} {x} (h : Runs consumeRule (flatRule c!"rule" ns) o x) :
    DefRuns (flatRule c!"rule" ns) (fun R => o.map fun p => R.add p.1 p.2) x := by
  obtain ⟨F, hF⟩ := h
  refine ⟨F, fun f hf R rest ctx => ?_⟩
  have ih := hF f hf rest ctx
  rw [recConsumeRulesOrModules]
  obtain ⟨l, e⟩ := flatRule_begin (n := c!"rule") ns (by decide) rest
  rw [e] at ih ⊢
  rcases ih.cases with ⟨p, rfl, rfl, ih⟩ | ⟨p, rfl, rfl, ih⟩
  · refine Or.inl ⟨_, rfl, rfl, ?_⟩
    show (consumeRule f (.beginRule c!"rule" :: l) ctx >>= _) = _
    rw [ih]
    rfl
  · refine Or.inr ⟨_, rfl, rfl, ?_⟩
    show (consumeRule f (.beginRule c!"rule" :: l) ctx >>= _) = _
    rw [ih]
    rfl

theorem defRuns_module {ns : List Node} {o : Option SetOfRules} {x} (h : Runs consumeModule (flatRule c!"module" ns) o x) :
    DefRuns (flatRule c!"module" ns) (fun R => o.map fun S => R.merge S) x := by
  obtain ⟨F, hF⟩ := h
  refine ⟨F, fun f hf R rest ctx => ?_⟩
  have ih := hF f hf rest ctx
  rw [recConsumeRulesOrModules]
  obtain ⟨l, e⟩ := flatRule_begin (n := c!"module") ns (by decide) rest
  rw [e] at ih ⊢
  rcases ih.cases with ⟨p, rfl, rfl, ih⟩ | ⟨p, rfl, rfl, ih⟩
  · refine Or.inl ⟨_, rfl, rfl, ?_⟩
    show (consumeModule f (.beginRule c!"module" :: l) ctx >>= _) = _
    rw [ih]
    rfl
  · refine Or.inr ⟨_, rfl, rfl, ?_⟩
    show (consumeModule f (.beginRule c!"module" :: l) ctx >>= _) = _
    rw [ih]
    rfl

theorem rulesRuns_nil : RulesRuns [] some none := by
  refine ⟨1, fun f hf R n tail ctx => ?_⟩
  obtain ⟨f, rfl⟩ : ∃ g, f = g + 1 := ⟨f - 1, by omega⟩
  rw [recConsumeRulesOrModules]
  rfl

theorem rulesRuns_cons {fs gs : List FNode} {g g' : SetOfRules → Option SetOfRules} {x x'} (h : DefRuns fs g x) (h' : RulesRuns gs g' x') :
    RulesRuns (fs ++ gs) (fun R => (g R).bind g') (first x x') := by
  obtain ⟨F, hF⟩ := h
  obtain ⟨F', hF'⟩ := h'
  refine ⟨F + F' + 1, fun f hf R n tail ctx => ?_⟩
  obtain ⟨f, rfl⟩ : ∃ g, f = g + 1 := ⟨f - 1, by omega⟩
  rw [List.append_assoc]
  show Gives ((g R).bind g') _ _ _ _
  rcases hF f (by omega) R (gs ++ .endRule n :: tail) ctx with ⟨R', h1, h2, h3⟩ | ⟨p, h1, h2, h3⟩
  · rw [h1, h2, h3]
    exact hF' f (by omega) R' n tail ctx
  · rw [h1, h2]
    exact h3

theorem run_grammar {ns g x} (h : RulesRuns (flatList ns) g x) :
    Runs consumeGrammar (flatRule c!"grammar" ns) (g SetOfRules.empty) (within [c!"consuming grammar"] x) := by
  obtain ⟨F, hF⟩ := h
  refine ⟨F + 1, fun f hf tail ctx => ?_⟩
  obtain ⟨f, rfl⟩ : ∃ g, f = g + 1 := ⟨f - 1, by omega⟩
  rw [consumeGrammar]
  exact Gives.consuming (by decide) (hF f (by omega) _ _ _ _)

theorem flat_ws (n) : flatRule c!"_" n = [] := by rw [flatRule, if_pos (by decide)]
theorem flat_weol (n) : flatRule c!"_eol" n = [] := by rw [flatRule, if_pos (by decide)]

theorem run_rule {nn ne n1 n2 n3 n4 n5 : List Node} {n : Str} {o : Option Expr} {x}
    (h : Runs consumeRuleName (flatRule c!"rule_name" nn) (some n) none) (h' : Runs consumePegExpr (flatRule c!"expr" ne) o x) :
    Runs consumeRule (flatRule c!"rule" [.rule c!"_" n1, .rule c!"rule_name" nn, .rule c!"_" n2, .val c!"=", .rule c!"_" n3, .rule c!"expr" ne,
      .rule c!"_eol" n4, .rule c!"_" n5]) (o.map fun e => (n, e)) (within [c!"consuming rule"] x) := by
  obtain ⟨F, hF⟩ := h
  obtain ⟨F', hF'⟩ := h'
  refine ⟨F + F', fun f hf tail ctx => ?_⟩
  unfold consumeRule
  refine Gives.consuming (by decide) ?_
  have e0 : flatList [.rule c!"_" n1, .rule c!"rule_name" nn, .rule c!"_" n2, .val c!"=", .rule c!"_" n3, .rule c!"expr" ne,
      .rule c!"_eol" n4, .rule c!"_" n5] ++ .endRule c!"rule" :: tail =
      flatRule c!"rule_name" nn ++ .val c!"=" :: (flatRule c!"expr" ne ++ .endRule c!"rule" :: tail) := by
    simp [flatList_rule, flatList_val_rule, flatList_nil, flat_ws, flat_weol]
  rw [e0]
  refine Gives.bind (hF f (by omega) (.val c!"=" :: (flatRule c!"expr" ne ++ .endRule c!"rule" :: tail)) ctx) ?_ (fun p h => by cases h)
  rintro v hv _
  cases hv
  refine Gives.bind (hF' f (by omega) (.endRule c!"rule" :: tail) ctx) ?_ (fun p h h' => ⟨by rw [h]; rfl, h'⟩)
  rintro v rfl rfl
  rfl

theorem remove_add (c : Context) (m : Str) : (c.addModule m).removeModule m = .ok c := by
  obtain ⟨l⟩ := c
  unfold Context.addModule
  cases h : l.getLast? <;> simp [Context.removeModule]

theorem run_module {nn ng n1 n2 n3 n4 n5 n6 : List Node} {n : Str} {o : Option SetOfRules} {x}
    (h : ∀ tail ctx, consumeModName (flatRule c!"mod_name" nn ++ tail) ctx = .ok (n, tail, ctx))
    (h' : Runs consumeGrammar (flatRule c!"grammar" ng) o x) :
    Runs consumeModule (flatRule c!"module" [.rule c!"_" n1, .rule c!"mod_name" nn, .rule c!"_" n2, .val c!"{", .rule c!"_" n3, .rule c!"grammar" ng,
      .rule c!"_" n4, .val c!"}", .rule c!"_eol" n5, .rule c!"_" n6]) o (within [c!"consuming module"] x) := by
  obtain ⟨F', hF'⟩ := h'
  refine ⟨F' + 1, fun f hf tail ctx => ?_⟩
  obtain ⟨f, rfl⟩ : ∃ g, f = g + 1 := ⟨f - 1, by omega⟩
  rw [consumeModule]
  refine Gives.consuming (by decide) ?_
  have e0 : flatList [.rule c!"_" n1, .rule c!"mod_name" nn, .rule c!"_" n2, .val c!"{", .rule c!"_" n3, .rule c!"grammar" ng,
      .rule c!"_" n4, .val c!"}", .rule c!"_eol" n5, .rule c!"_" n6] ++ .endRule c!"module" :: tail =
      flatRule c!"mod_name" nn ++ .val c!"{" :: (flatRule c!"grammar" ng ++ .val c!"}" :: .endRule c!"module" :: tail) := by
    simp [flatList_rule, flatList_val_rule, flatList_nil, flat_ws, flat_weol]
  rw [e0, h]
  have ih := hF' f (by omega) (.val c!"}" :: .endRule c!"module" :: tail) (ctx.addModule n)
  rcases ih.cases with ⟨S, rfl, rfl, ih⟩ | ⟨p, rfl, rfl, ih⟩
  · show (consumeGrammar f (flatRule c!"grammar" ng ++ .val c!"}" :: .endRule c!"module" :: tail) (ctx.addModule n) >>= _) = _
    rw [ih]
    show ((ctx.addModule n).removeModule n >>= _) = _
    rw [remove_add]
    rfl
  · show (consumeGrammar f (flatRule c!"grammar" ng ++ .val c!"}" :: .endRule c!"module" :: tail) (ctx.addModule n) >>= _) = _
    rw [ih]
    rfl

/-! ### Reading -/

abbrev eDefn : Expr := .or [.ruleName c!"rule", .ruleName c!"module"]

def DefReads (d : Def) : Prop := ∀ gs r, GapsOK gs → DefFollow r → ∃ m ns,
  Peg GP eDefn (gapsStr gs ++ (d.str ++ r)) (.ok r [.rule m ns]) ∧ DefRuns (flatRule m ns) (fun R => defRules R d) d.fault

def DefsReads (ds : Defs) : Prop := ∀ gs r k, k ≤ 1 → GapsOK gs → DefsEnd r → ∃ ns,
  Peg GP (.rep eDefn k none) (gapsStr gs ++ (ds.str ++ r)) (.ok r ns) ∧ RulesRuns (flatList ns) (fun R => defsRules R ds) ds.fault

theorem defs_stop {r} (h : DefsEnd r) : Peg GP eDefn r .fail := by
  obtain ⟨ns, h1⟩ := ws_ok (gs := []) (r := r) trivial h.noGap
  have hw : ∀ c, r.head? = some c → ¬ WordChar c := by
    intro c hc
    rw [h c hc]
    decide
  refine .or_next (.call_fail gp_rule (.and_tail_fail h1 (.and_fail (name_fail hw ?_))))
    (.or_next (.call_fail gp_module (.and_tail_fail h1 (.and_fail (.call_fail gp_mod_name (symbol_fail hw))))) (.or_nil _))
  rintro t rfl
  exact absurd (h '.' rfl) (by decide)

theorem rule_reads {n g1 g2 e t} (h : (Def.rule n g1 g2 e t).OK) : DefReads (.rule n g1 g2 e t) := by
  rw [Def.OK] at h
  obtain ⟨hn, hg1, hg2, he, ht⟩ := h
  intro gs r hgs hr
  have e0 : (Def.rule n g1 g2 e t).str ++ r = n ++ (gapsStr g1 ++ '=' :: (gapsStr g2 ++ (e.str ++ (gapsStr t.gaps ++ r)))) := by simp [Def.str]
  rw [e0]
  obtain ⟨c, u, rfl, hc⟩ := name_start hn
  obtain ⟨d, v, ed, hd⟩ := alt_start he
  obtain ⟨m0, p0⟩ := ws_ok (r := c :: u ++ (gapsStr g1 ++ '=' :: (gapsStr g2 ++ (e.str ++ (gapsStr t.gaps ++ r))))) hgs (word_start hc).1.noGap
  obtain ⟨m1, p1, q1⟩ := name_reads hn (nameEnd_gaps g1 (c := '=') (by simp) (gapsStr g2 ++ (e.str ++ (gapsStr t.gaps ++ r))))
  obtain ⟨m2, p2⟩ := ws_ok (r := '=' :: (gapsStr g2 ++ (e.str ++ (gapsStr t.gaps ++ r)))) hg1 (NoGap.of (by decide))
  obtain ⟨m3, p3⟩ := ws_ok (r := e.str ++ (gapsStr t.gaps ++ r)) hg2 (by rw [ed]; exact hd.noGap)
  obtain ⟨m4, p4, q4⟩ := expr_reads (alt_reads e he) (term_end ht hr)
  obtain ⟨q, m5, m6, p5, p6⟩ := term_ok ht hr.noGap
  have h1 := defRuns_rule (run_rule (n1 := m0) (n2 := m2) (n3 := m3) (n4 := m5) (n5 := m6) q1 q4)
  have e1 : (fun R : SetOfRules => (((e.denote.map altOf).map fun x => ((c :: u : Str), x)).map fun p => R.add p.1 p.2)) =
      fun R => defRules R (.rule (c :: u) g1 g2 e t) := by
    funext R
    rw [defRules]
    cases e.denote <;> rfl
  rw [e1, within_within] at h1
  exact ⟨_, _, .or_ok (.call_ok gp_rule (andC p0 (andC p1 (andC p2 (andC lit1 (andC p3 (andC p4 (andC p5 (and1 p6))))))))), h1⟩

theorem module_reads {n g1 g2 ds t} (h : (Def.module n g1 g2 ds t).OK) (ih : DefsReads ds) : DefReads (.module n g1 g2 ds t) := by
  rw [Def.OK] at h
  obtain ⟨hn, hg1, hg2, hds, ht⟩ := h
  intro gs r hgs hr
  have e0 : (Def.module n g1 g2 ds t).str ++ r = n ++ (gapsStr g1 ++ '{' :: (gapsStr g2 ++ (ds.str ++ '}' :: (gapsStr t.gaps ++ r)))) := by simp [Def.str]
  rw [e0]
  obtain ⟨c, u, rfl, hc⟩ := symbol_start hn
  obtain ⟨d, v, ed, hd⟩ := defs_start hds ('}' :: (gapsStr t.gaps ++ r))
  have hne := nameEnd_gaps g1 (c := '{') (by simp) (gapsStr g2 ++ (ds.str ++ '}' :: (gapsStr t.gaps ++ r)))
  obtain ⟨m0, p0⟩ := ws_ok (r := c :: u ++ (gapsStr g1 ++ '{' :: (gapsStr g2 ++ (ds.str ++ '}' :: (gapsStr t.gaps ++ r))))) hgs
    (word_start (Or.inl hc)).1.noGap
  obtain ⟨m1', p1', _⟩ := name_reads (symbol_name hn) hne
  obtain ⟨m1, p1, q1⟩ := modName_reads hn hne.1
  obtain ⟨m2, p2⟩ := ws_ok (r := '{' :: (gapsStr g2 ++ (ds.str ++ '}' :: (gapsStr t.gaps ++ r)))) hg1 (NoGap.of (by decide))
  obtain ⟨m3, p3⟩ := ws_ok (r := ds.str ++ '}' :: (gapsStr t.gaps ++ r)) hg2 (by rw [ed]; exact hd.noGap)
  have hend : DefsEnd ('}' :: (gapsStr t.gaps ++ r)) := fun c hc => by cases hc; rfl
  obtain ⟨m4, p4, q4⟩ := ih [] _ 1 (by omega) trivial hend
  obtain ⟨m7, p7⟩ := ws_ok (gs := []) (r := '}' :: (gapsStr t.gaps ++ r)) trivial hend.noGap
  obtain ⟨q, m5, m6, p5, p6⟩ := term_ok ht hr.noGap
  have h1 := defRuns_module (run_module (n1 := m0) (n2 := m2) (n3 := m3) (n4 := m7) (n5 := m5) (n6 := m6) q1 (run_grammar q4))
  have e1 : (fun R : SetOfRules => (defsRules SetOfRules.empty ds).map fun S => R.merge S) =
      fun R => defRules R (.module (c :: u) g1 g2 ds t) := by
    funext R
    rw [defRules]
  rw [e1, within_within] at h1
  refine ⟨_, _, .or_next (.call_fail gp_rule (.and_tail_fail p0 (.and_tail_fail p1' (.and_tail_fail p2 (.and_fail (litF (by simp))))))) (.or_ok
    (.call_ok gp_module (andC p0 (andC p1 (andC p2 (andC lit1 (andC p3 (andC (.call_ok gp_grammar p4) (andC p7 (andC lit1 (andC p5 (and1 p6)))))))))))), h1⟩

mutual
theorem def_reads : ∀ d : Def, d.OK → DefReads d
  | .rule _ _ _ _ _, h => rule_reads h
  | .module n g1 g2 ds t, h => module_reads h (defs_reads ds (by rw [Def.OK] at h; exact h.2.2.2.1))
theorem defs_reads : ∀ ds : Defs, ds.OK → DefsReads ds
  | .one d, h => by
    rw [Defs.OK] at h
    intro gs r k hk hgs hr
    obtain ⟨m, ns, h1, h2⟩ := def_reads d h gs r hgs (Or.inl hr)
    have h3 := rulesRuns_cons h2 rulesRuns_nil
    rw [List.append_nil, ← flatList_one, show first d.fault none = d.fault by cases d.fault <;> rfl] at h3
    have e0 : k - 1 = 0 := by omega
    have h4 : Peg GP (.rep eDefn (k - 1) none) r (.ok r []) := by
      rw [e0]
      exact .rep_stop (by simp) (defs_stop hr)
    refine ⟨_, .rep_more (by simp) h1 h4, ?_⟩
    rw [List.append_nil]
    have e1 : (fun R => (defRules R d).bind some) = fun R => defsRules R (.one d) := by
      funext R
      rw [defsRules]
      cases defRules R d <;> rfl
    rw [e1] at h3
    exact h3
  | .cons d ds, h => by
    rw [Defs.OK] at h
    intro gs r k hk hgs hr
    obtain ⟨c, t, e, hc⟩ := defs_start h.2 r
    have hf : DefFollow (ds.str ++ r) := by
      cases ds with
      | one d' => rw [Defs.str]; rw [Defs.OK] at h; exact def_follow h.2 r
      | cons d' ds' => rw [Defs.str, List.append_assoc]; rw [Defs.OK] at h; exact def_follow h.2.1 _
    obtain ⟨m, ns, h1, h2⟩ := def_reads d h.1 gs (ds.str ++ r) hgs hf
    have e0 : k - 1 = 0 := by omega
    obtain ⟨nt, h3, h4⟩ := defs_reads ds h.2 [] r 0 (by omega) trivial hr
    rw [Defs.str, List.append_assoc]
    rw [← e0] at h3
    refine ⟨_, .rep_more (by simp) h1 h3, ?_⟩
    have h5 := rulesRuns_cons h2 h4
    have e1 : (fun R => (defRules R d).bind fun R => defsRules R ds) = fun R => defsRules R (.cons d ds) := by
      funext R
      rw [defsRules]
    rw [e1] at h5
    rw [List.singleton_append, flatList_rule]
    exact h5
end

/-! ### Documents -/

theorem doc_reads {d : Doc} (h : d.OK) : ∃ ns, Peg GP (.ruleName c!"main") d.str (.ok [] [.rule c!"main" ns]) ∧
    Runs consumeMain (flatRule c!"main" ns) (defsRules SetOfRules.empty d.defs) d.fault := by
  obtain ⟨ns, h1, h2⟩ := defs_reads d.defs h.2 d.before [] 1 (by omega) h.1 (fun c hc => by cases hc)
  rw [List.append_nil] at h1
  obtain ⟨F, hF⟩ := run_grammar h2
  refine ⟨_, .call_ok gp_main (.call_ok gp_grammar h1), F, fun f hf tail ctx => ?_⟩
  unfold consumeMain
  have e : d.fault = within [c!"consuming main"] (within [c!"consuming grammar"] d.defs.fault) := by rw [within_within]; rfl
  rw [e]
  refine Gives.consuming (by decide) ?_
  rw [flatList_one]
  exact hF f hf _ _

theorem flatAst_of_run {t : Node} {ns o x} (ht : t = .rule c!"main" ns) (h : Runs consumeMain (flatRule c!"main" ns) o x) :
    (∃ R, o = some R ∧ x = none ∧ rulesFromFlatAst (pegFlat t) = .ok R) ∨
    ∃ p, o = none ∧ x = some p ∧ rulesFromFlatAst (pegFlat t) = .err p.error := by
  obtain ⟨F, hF⟩ := h
  have ih := hF F (Nat.le_refl _) [] .new
  have e : pegFlat t = flatRule c!"main" ns ++ [] := by
    rw [ht, pegFlat_rule, flatRule, if_neg (by decide), List.append_nil]
  rw [← e] at ih
  rcases ih.cases with ⟨R, rfl, rfl, ih⟩ | ⟨p, rfl, rfl, ih⟩
  · refine Or.inl ⟨R, rfl, rfl, limit_of (fun f => flatAst_step f _) (n := F) ?_ (by simp)⟩
    show rulesFromFlatAstF F _ = _
    unfold rulesFromFlatAstF
    rw [ih]
    rfl
  · refine Or.inr ⟨p, rfl, rfl, limit_of (fun f => flatAst_step f _) (n := F) ?_ (by simp)⟩
    show rulesFromFlatAstF F _ = _
    unfold rulesFromFlatAstF
    rw [ih]
    rfl

/-- what `rules_from_peg` gives on a document -/
theorem rulesFromPeg_doc' {d : Doc} (h : d.OK) (ha : Ascii d.str) :
    (∃ R, defsRules SetOfRules.empty d.defs = some R ∧ d.fault = none ∧ rulesFromPeg d.str = .ok R) ∨
    ∃ p, defsRules SetOfRules.empty d.defs = none ∧ d.fault = some p ∧ rulesFromPeg d.str = .err p.error := by
  obtain ⟨ns, h1, h2⟩ := doc_reads h
  have hp : parse d.str PegRules.parsePeg = .ok (.rule c!"main" ns) := by
    rw [C02_parse_ok_iff_peg_any_bounds _ _ ha, denotes_peg]
    exact h1
  rw [rulesFromPeg_eq, hp]
  exact flatAst_of_run rfl h2

theorem rulesFromPeg_doc {d : Doc} (h : d.OK) (ha : Ascii d.str) :
    (∀ R, defsRules SetOfRules.empty d.defs = some R → rulesFromPeg d.str = .ok R) ∧
    (defsRules SetOfRules.empty d.defs = none → ∃ e, rulesFromPeg d.str = .err e) := by
  rcases rulesFromPeg_doc' h ha with ⟨R, h1, _, h2⟩ | ⟨p, h1, _, h2⟩
  · exact ⟨fun R' h => by rw [h1] at h; cases h; exact h2, fun h => by rw [h1] at h; cases h⟩
  · exact ⟨fun R' h => (by rw [h1] at h; cases h), fun _ => ⟨_, h2⟩⟩

mutual
theorem def_denote : ∀ (d : Def) (R : SetOfRules), UniqueKeys R →
    d.denote (grammar R) = (defRules R d).map grammar ∧ ∀ R', defRules R d = some R' → UniqueKeys R'
  | .rule n g1 g2 e t, R, hR => by
    rw [Def.denote, defRules, Option.map_map]
    cases e.denote with
    | none => exact ⟨rfl, fun R' h => by cases h⟩
    | some es =>
      refine ⟨?_, fun R' h => by cases h; exact C22_keys_unique.2.1 R _ _ hR⟩
      show some _ = some _
      congr 1
      funext x
      exact (C22_add R n (altOf es) x).symm
  | .module n g1 g2 ds t, R, hR => by
    have h := defs_denote ds SetOfRules.empty C22_keys_unique.1
    have e0 : grammar SetOfRules.empty = fun _ => none := by funext x; rfl
    rw [e0] at h
    rw [Def.denote, defRules, Option.map_map, h.1, Option.map_map]
    cases hS : defsRules SetOfRules.empty ds with
    | none => exact ⟨rfl, fun R' h => by cases h⟩
    | some S =>
      refine ⟨?_, fun R' h => by cases h; exact C22_keys_unique.2.2.1 R S⟩
      show some _ = some _
      congr 1
      funext x
      exact (C22_merge hR (h.2 S hS) x).symm
theorem defs_denote : ∀ (ds : Defs) (R : SetOfRules), UniqueKeys R →
    ds.denote (grammar R) = (defsRules R ds).map grammar ∧ ∀ R', defsRules R ds = some R' → UniqueKeys R'
  | .one d, R, hR => by
    rw [Defs.denote, defsRules]
    exact def_denote d R hR
  | .cons d ds, R, hR => by
    have h := def_denote d R hR
    rw [Defs.denote, defsRules, h.1]
    cases hd : defRules R d with
    | none => exact ⟨rfl, fun R' h => by cases h⟩
    | some R' => exact defs_denote ds R' (h.2 R' hd)
end

/-- what `rules_from_peg` gives on a document, as a mapping from names to expressions -/
theorem rulesFromPeg_denote {d : Doc} (h : d.OK) (ha : Ascii d.str) :
    (∀ m, d.denote = some m → ∃ R, rulesFromPeg d.str = .ok R ∧ grammar R = m ∧ UniqueKeys R) ∧
    (d.denote = none → ∃ e, rulesFromPeg d.str = .err e) := by
  have h1 := defs_denote d.defs SetOfRules.empty C22_keys_unique.1
  have e0 : grammar SetOfRules.empty = fun _ => none := by funext x; rfl
  rw [e0] at h1
  have h2 := rulesFromPeg_doc h ha
  unfold Doc.denote
  rw [h1.1]
  constructor
  · intro m hm
    obtain ⟨R, hR, rfl⟩ := Option.map_some_iff' hm
    exact ⟨R, h2.1 R hR, rfl, h1.2 R hR⟩
  · intro hm
    exact h2.2 (by simpa using hm)

end DP
