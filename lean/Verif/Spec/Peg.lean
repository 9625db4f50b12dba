/-
Independent specification: the declarative (big-step) semantics of PEG expressions.

`Peg G e s o` reads: "under the rules `G`, expression `e` applied to the text `s` has outcome `o`".
Only the data types of the model are used, none of its functions.
-/
import Verif.Model.Parser

namespace DP.Spec

/-- Outcome of matching an expression against a text. -/
inductive Outcome where
  /-- a prefix was matched: what is left, and the nodes produced -/
  | ok (rest : Str) (nodes : List Node)
  /-- ordinary failure (may be recovered by a choice, a repetition or a negation) -/
  | fail
  /-- critical failure (only a negation recovers from it): why, and the text left at that point -/
  | crit (why : Descr) (rest : Str)

/-- A character belongs to the class with the given characters and (inclusive) ranges. -/
def InClass (chars : Str) (ranges : List (Char × Char)) (c : Char) : Prop :=
  c ∈ chars ∨ ∃ r ∈ ranges, r.1.toNat ≤ c.toNat ∧ c.toNat ≤ r.2.toNat

inductive Peg (G : Str → Option Expr) : Expr → Str → Outcome → Prop
  -- terminals
  | lit_ok (l r : Str) : Peg G (.simple (.literal l)) (l ++ r) (.ok r [.val l])
  | lit_fail (l s : Str) : ¬ l <+: s → Peg G (.simple (.literal l)) s .fail
  | class_ok (cs rs c r) : InClass cs rs c → Peg G (.simple (.mtch cs rs)) (c :: r) (.ok r [.val [c]])
  | class_fail (cs rs c r) : ¬ InClass cs rs c → Peg G (.simple (.mtch cs rs)) (c :: r) .fail
  | class_end (cs rs) : Peg G (.simple (.mtch cs rs)) [] .fail
  | dot_ok (c r) : Peg G (.simple .dot) (c :: r) (.ok r [.val [c]])
  | dot_end : Peg G (.simple .dot) [] .fail
  | eof_ok : Peg G (.simple .eof) [] (.ok [] [.val c!"EOF"])
  | eof_fail (c r) : Peg G (.simple .eof) (c :: r) .fail
  | error (m s) : Peg G (.simple (.error m)) s (.crit (.custom m) s)
  -- sequence
  | and_nil (s) : Peg G (.and []) s (.ok s [])
  | and_ok {e es s r r' ns ns'} : Peg G e s (.ok r ns) → Peg G (.and es) r (.ok r' ns') →
      Peg G (.and (e :: es)) s (.ok r' (ns ++ ns'))
  | and_fail {e es s} : Peg G e s .fail → Peg G (.and (e :: es)) s .fail
  | and_crit {e es s w q} : Peg G e s (.crit w q) → Peg G (.and (e :: es)) s (.crit w q)
  | and_tail_fail {e es s r ns} : Peg G e s (.ok r ns) → Peg G (.and es) r .fail →
      Peg G (.and (e :: es)) s .fail
  | and_tail_crit {e es s r ns w q} : Peg G e s (.ok r ns) → Peg G (.and es) r (.crit w q) →
      Peg G (.and (e :: es)) s (.crit w q)
  -- ordered choice
  | or_nil (s) : Peg G (.or []) s .fail
  | or_ok {e es s r ns} : Peg G e s (.ok r ns) → Peg G (.or (e :: es)) s (.ok r ns)
  | or_crit {e es s w q} : Peg G e s (.crit w q) → Peg G (.or (e :: es)) s (.crit w q)
  | or_next {e es s o} : Peg G e s .fail → Peg G (.or es) s o → Peg G (.or (e :: es)) s o
  -- negative lookahead
  | not_ok {e s r ns} : Peg G e s (.ok r ns) → Peg G (.not e) s .fail
  | not_fail {e s} : Peg G e s .fail → Peg G (.not e) s (.ok s [])
  | not_crit {e s w q} : Peg G e s (.crit w q) → Peg G (.not e) s (.ok s [])
  -- greedy repetition, between `mn` and `mx` times
  | rep_full (e mn s) : Peg G (.rep e mn (some 0)) s (.ok s [])
  | rep_more {e mn mx s r r' ns ns'} : mx ≠ some 0 → Peg G e s (.ok r ns) →
      Peg G (.rep e (mn - 1) (mx.map (· - 1))) r (.ok r' ns') →
      Peg G (.rep e mn mx) s (.ok r' (ns ++ ns'))
  | rep_stop {e mx s} : mx ≠ some 0 → Peg G e s .fail → Peg G (.rep e 0 mx) s (.ok s [])
  | rep_few {e mn mx s} : mx ≠ some 0 → 0 < mn → Peg G e s .fail → Peg G (.rep e mn mx) s .fail
  | rep_crit {e mn mx s w q} : mx ≠ some 0 → Peg G e s (.crit w q) →
      Peg G (.rep e mn mx) s (.crit w q)
  | rep_more_fail {e mn mx s r ns} : mx ≠ some 0 → Peg G e s (.ok r ns) →
      Peg G (.rep e (mn - 1) (mx.map (· - 1))) r .fail → Peg G (.rep e mn mx) s .fail
  | rep_more_crit {e mn mx s r ns w q} : mx ≠ some 0 → Peg G e s (.ok r ns) →
      Peg G (.rep e (mn - 1) (mx.map (· - 1))) r (.crit w q) → Peg G (.rep e mn mx) s (.crit w q)
  -- rule call
  | call_ok {n e s r ns} : G n = some e → Peg G e s (.ok r ns) →
      Peg G (.ruleName n) s (.ok r [.rule n ns])
  | call_fail {n e s} : G n = some e → Peg G e s .fail → Peg G (.ruleName n) s .fail
  | call_crit {n e s w q} : G n = some e → Peg G e s (.crit w q) →
      Peg G (.ruleName n) s (.crit w q)
  | call_missing {n s} : G n = none → Peg G (.ruleName n) s (.crit (.missingRule n) s)

/-- A set of rules, read as the mapping from names to expressions. -/
def grammar (R : SetOfRules) : Str → Option Expr := fun n => R.entries.lookup n

/-- Repetition bounds that can be met: an upper bound is at least one and at least the lower bound. -/
inductive BoundsOK : Expr → Prop
  | simple (a) : BoundsOK (.simple a)
  | and {es} : (∀ e ∈ es, BoundsOK e) → BoundsOK (.and es)
  | or {es} : (∀ e ∈ es, BoundsOK e) → BoundsOK (.or es)
  | not {e} : BoundsOK e → BoundsOK (.not e)
  | rep {e mn mx} : BoundsOK e → (∀ m, mx = some m → 1 ≤ m ∧ mn ≤ m) → BoundsOK (.rep e mn mx)
  | ruleName (n) : BoundsOK (.ruleName n)

/-- All the rules of a set have satisfiable repetition bounds. -/
def RulesBoundsOK (R : SetOfRules) : Prop := ∀ ne ∈ R.entries, BoundsOK ne.2

/-- The expression does not use the EOF atom. -/
inductive NoEof : Expr → Prop
  | simple {a} : a ≠ .eof → NoEof (.simple a)
  | and {es} : (∀ e ∈ es, NoEof e) → NoEof (.and es)
  | or {es} : (∀ e ∈ es, NoEof e) → NoEof (.or es)
  | not (e) : NoEof (.not e)
  | rep {e mn mx} : NoEof e → NoEof (.rep e mn mx)
  | ruleName (n) : NoEof (.ruleName n)

end DP.Spec
