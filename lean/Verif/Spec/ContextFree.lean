/-
Independent specification: rules read as a context-free grammar. A choice is any of its alternatives, a
repetition any number of its bodies within the bounds, and a negation is nothing at all. And the condition
of being LL(1), adapted to choices that are tried in order.
-/
import Verif.Spec.WellFormed
import Mathlib.Data.List.Forall2

namespace DP.Spec

/-- `Gen G e u ns`: `e` derives the text `u`, with the nodes `ns`. -/
inductive Gen (G : Str → Option Expr) : Expr → Str → List Node → Prop
  | lit (l) : Gen G (.simple (.literal l)) l [.val l]
  | cls {cs rs c} : InClass cs rs c → Gen G (.simple (.mtch cs rs)) [c] [.val [c]]
  | dot (c) : Gen G (.simple .dot) [c] [.val [c]]
  | eof : Gen G (.simple .eof) [] [.val c!"EOF"]
  | nil : Gen G (.and []) [] []
  | cons {e es u v ns ms} : Gen G e u ns → Gen G (.and es) v ms → Gen G (.and (e :: es)) (u ++ v) (ns ++ ms)
  | or {es e u ns} : e ∈ es → Gen G e u ns → Gen G (.or es) u ns
  | not (e) : Gen G (.not e) [] []
  | none (e mx) : Gen G (.rep e 0 mx) [] []
  | full (e mn) : Gen G (.rep e mn (some 0)) [] []
  | more {e mn mx u v ns ms} : mx ≠ some 0 → Gen G e u ns → Gen G (.rep e (mn - 1) (mx.map (· - 1))) v ms →
      Gen G (.rep e mn mx) (u ++ v) (ns ++ ms)
  | call {n e u ns} : G n = some e → Gen G e u ns → Gen G (.ruleName n) u [.rule n ns]

/-- `e` derives the empty text -/
def Nullable (G : Str → Option Expr) (e : Expr) : Prop := ∃ ns, Gen G e [] ns

/-- `e` derives a text that begins with `c` -/
def First (G : Str → Option Expr) (e : Expr) (c : Char) : Prop := ∃ u ns, Gen G e (c :: u) ns

/-- `Follow G e x`: in a text derived from `main` the character `x` (`none`: the end) can come after what
is derived from `e`. -/
inductive Follow (G : Str → Option Expr) : Expr → Option Char → Prop
  | main : Follow G (.ruleName c!"main") .none
  | body {n e x} : G n = some e → Follow G (.ruleName n) x → Follow G e x
  | next {e es x c} : Follow G (.and (e :: es)) x → First G (.and es) c → Follow G e (some c)
  | last {e es x} : Follow G (.and (e :: es)) x → Nullable G (.and es) → Follow G e x
  | rest {e es x} : Follow G (.and (e :: es)) x → Follow G (.and es) x
  | alternative {e es x} : Follow G (.or (e :: es)) x → Follow G e x
  | alternatives {e es x} : Follow G (.or (e :: es)) x → Follow G (.or es) x
  | again {e mn mx x c} : Follow G (.rep e mn mx) x → mx ≠ some 0 → First G (.rep e (mn - 1) (mx.map (· - 1))) c →
      Follow G e (some c)
  | once {e mn mx x} : Follow G (.rep e mn mx) x → mx ≠ some 0 → Nullable G (.rep e (mn - 1) (mx.map (· - 1))) →
      Follow G e x
  | repeats {e mn mx x} : Follow G (.rep e mn mx) x → mx ≠ some 0 → Follow G (.rep e (mn - 1) (mx.map (· - 1))) x

/-- One character decides: of the alternatives of a choice only the last derives the empty text, they begin
with different characters, and an alternative before one that derives the empty text does not begin with a
character that can follow; what is repeated does not derive the empty text and does not begin with a character
that can follow the repetition. -/
structure LL1 (G : Str → Option Expr) : Prop where
  choice : ∀ e e' es x, Follow G (.or (e :: e' :: es)) x → ¬ Nullable G e ∧
    ∀ c, First G e c → ¬ First G (.or (e' :: es)) c ∧ (Nullable G (.or (e' :: es)) → x ≠ some c)
  repetition : ∀ e mx x, Follow G (.rep e 0 mx) x → mx ≠ some 0 → ¬ Nullable G e ∧ ∀ c, First G e c → x ≠ some c

/-- expressions of context-free grammars: no negation, no `error(...)`, no end of text, no missing rule -/
inductive Plain (G : Str → Option Expr) : Expr → Prop
  | lit (l) : Plain G (.simple (.literal l))
  | cls (cs rs) : Plain G (.simple (.mtch cs rs))
  | dot : Plain G (.simple .dot)
  | and {es} : (∀ e ∈ es, Plain G e) → Plain G (.and es)
  | or {es} : (∀ e ∈ es, Plain G e) → Plain G (.or es)
  | rep {e mn mx} : Plain G e → Plain G (.rep e mn mx)
  | call {n e} : G n = some e → Plain G (.ruleName n)

/-- `Shuffle e e'`: `e'` is `e` with the alternatives of its choices in another order. -/
inductive Shuffle : Expr → Expr → Prop
  | simple (a) : Shuffle (.simple a) (.simple a)
  | and {es es'} : List.Forall₂ Shuffle es es' → Shuffle (.and es) (.and es')
  | or {es es' fs} : List.Forall₂ Shuffle es es' → es'.Perm fs → Shuffle (.or es) (.or fs)
  | not {e e'} : Shuffle e e' → Shuffle (.not e) (.not e')
  | rep {e e'} (mn mx) : Shuffle e e' → Shuffle (.rep e mn mx) (.rep e' mn mx)
  | ruleName (n) : Shuffle (.ruleName n) (.ruleName n)

/-- text with balanced parentheses and nothing else: reading it with `n` parentheses open, none is closed
that was not open, and at the end none is open -/
def balanced : Nat → Str → Bool
  | 0, [] => true
  | n, '(' :: s => balanced (n + 1) s
  | n + 1, ')' :: s => balanced n s
  | _, _ => false

end DP.Spec
