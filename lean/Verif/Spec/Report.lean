/-
Independent specification: which error is reported.

`Reports G tr e j s o` refines the semantics of Spec/Peg.lean with everything that the caller of `parse`
can observe when matching goes wrong: what was expected, where, the error remembered from repetitions that
stopped, and (when `tr`) the names of the rules entered. Only the data types of the model are used.
-/
import Verif.Spec.Bounds
import Verif.Spec.Text

namespace DP.Spec

/-- A reason for not matching: what was expected, how serious it is, the text left at the place it is
reported at, and the rules entered so far. -/
structure Fault where
  why : Descr
  prio : Prio
  rest : Str
  rules : List Str

/-- What is carried along while matching: the fault at which the latest repetition stopped, and the rules
entered so far. -/
structure Journal where
  kept : Option Fault
  rules : List Str

/-- nothing has happened yet -/
def Journal.blank : Journal := ⟨none, []⟩

/-- entering a rule leaves a mark when tracing -/
def Journal.enter (tr : Bool) (j : Journal) (n : Str) : Journal :=
  ⟨j.kept, if tr = true then j.rules ++ [c!"r:" ++ n] else j.rules⟩

inductive Report where
  /-- matched: what is left, the nodes produced, the journal -/
  | ok (rest : Str) (nodes : List Node) (j : Journal)
  | bad (f : Fault)

/-- the outcome (Spec/Peg.lean) that a report amounts to -/
def Report.outcome : Report → Outcome
  | .ok r ns _ => .ok r ns
  | .bad f => match f.prio with
    | .normal => .fail
    | .critical => .crit f.why f.rest

/-- The fault of a choice whose first alternative has fault `f` (an ordinary one) and whose remaining
alternatives have fault `g`: `g`, unless it is ordinary too and `f` is strictly further in the text. -/
def worse (f g : Fault) : Fault :=
  if g.prio = .normal ∧ f.rest.length < g.rest.length then f else g

inductive Reports (G : Str → Option Expr) (tr : Bool) : Expr → Journal → Str → Report → Prop
  -- terminals: a wrong character is reported at the place after it
  | lit_ok (l r j) : Reports G tr (.simple (.literal l)) j (l ++ r) (.ok r [.val l] j)
  | lit_differs (a c b d r j) : c ≠ d →
      Reports G tr (.simple (.literal (a ++ c :: b))) j (a ++ d :: r)
        (.bad ⟨.literal (a ++ c :: b), .normal, r, j.rules⟩)
  | lit_short (a c b j) :
      Reports G tr (.simple (.literal (a ++ c :: b))) j a
        (.bad ⟨.literal (a ++ c :: b), .normal, [], j.rules⟩)
  | class_ok (cs rs c r j) : InClass cs rs c →
      Reports G tr (.simple (.mtch cs rs)) j (c :: r) (.ok r [.val [c]] j)
  | class_differs (cs rs c r j) : ¬ InClass cs rs c →
      Reports G tr (.simple (.mtch cs rs)) j (c :: r) (.bad ⟨.mtch cs rs, .normal, r, j.rules⟩)
  | class_end (cs rs j) :
      Reports G tr (.simple (.mtch cs rs)) j [] (.bad ⟨.mtch cs rs, .normal, [], j.rules⟩)
  | dot_ok (c r j) : Reports G tr (.simple .dot) j (c :: r) (.ok r [.val [c]] j)
  | dot_end (j) : Reports G tr (.simple .dot) j [] (.bad ⟨.dot, .normal, [], j.rules⟩)
  | eof_ok (j) : Reports G tr (.simple .eof) j [] (.ok [] [.val c!"EOF"] j)
  | eof_differs (c r j) : Reports G tr (.simple .eof) j (c :: r) (.bad ⟨.eof, .normal, r, j.rules⟩)
  | error (m s j) : Reports G tr (.simple (.error m)) j s (.bad ⟨.custom m, .critical, s, j.rules⟩)
  -- sequence: the first fault is the fault of the sequence
  | and_nil (s j) : Reports G tr (.and []) j s (.ok s [] j)
  | and_ok {e es s r r' ns ns' j j' j''} : Reports G tr e j s (.ok r ns j') →
      Reports G tr (.and es) j' r (.ok r' ns' j'') →
      Reports G tr (.and (e :: es)) j s (.ok r' (ns ++ ns') j'')
  | and_bad {e es s f j} : Reports G tr e j s (.bad f) → Reports G tr (.and (e :: es)) j s (.bad f)
  | and_tail_bad {e es s r ns f j j'} : Reports G tr e j s (.ok r ns j') →
      Reports G tr (.and es) j' r (.bad f) → Reports G tr (.and (e :: es)) j s (.bad f)
  -- ordered choice: alternatives that fail leave nothing in the journal
  | or_nil (s j) : Reports G tr (.or []) j s (.bad ⟨.orLogic, .normal, s, j.rules⟩)
  | or_ok {e es s r ns j j'} : Reports G tr e j s (.ok r ns j') →
      Reports G tr (.or (e :: es)) j s (.ok r ns j')
  | or_crit {e es s f j} : Reports G tr e j s (.bad f) → f.prio = .critical →
      Reports G tr (.or (e :: es)) j s (.bad f)
  | or_last {e s f j} : Reports G tr e j s (.bad f) → f.prio = .normal →
      Reports G tr (.or [e]) j s (.bad f)
  | or_next_ok {e e' es s f r ns j j'} : Reports G tr e j s (.bad f) → f.prio = .normal →
      Reports G tr (.or (e' :: es)) j s (.ok r ns j') →
      Reports G tr (.or (e :: e' :: es)) j s (.ok r ns j')
  | or_next_bad {e e' es s f g j} : Reports G tr e j s (.bad f) → f.prio = .normal →
      Reports G tr (.or (e' :: es)) j s (.bad g) →
      Reports G tr (.or (e :: e' :: es)) j s (.bad (worse f g))
  -- negative lookahead: reported where it stands; nothing of the lookahead is remembered
  | not_ok {e s r ns j j'} : Reports G tr e j s (.ok r ns j') →
      Reports G tr (.not e) j s (.bad ⟨.not, .normal, s, j.rules⟩)
  | not_bad {e s f j} : Reports G tr e j s (.bad f) → Reports G tr (.not e) j s (.ok s [] j)
  -- greedy repetition, between `mn` and `mx` times: stopping early is remembered
  | rep_full (e mn s j) : Reports G tr (.rep e mn (some 0)) j s (.ok s [] j)
  | rep_more {e mn mx s r r' ns ns' j j' j''} : mx ≠ some 0 → Reports G tr e j s (.ok r ns j') →
      Reports G tr (.rep e (mn - 1) (mx.map (· - 1))) j' r (.ok r' ns' j'') →
      Reports G tr (.rep e mn mx) j s (.ok r' (ns ++ ns') j'')
  | rep_stop {e mx s f j} : mx ≠ some 0 → Reports G tr e j s (.bad f) → f.prio = .normal →
      Reports G tr (.rep e 0 mx) j s (.ok s [] ⟨some f, j.rules⟩)
  | rep_crit {e mx s f j} : mx ≠ some 0 → Reports G tr e j s (.bad f) → f.prio = .critical →
      Reports G tr (.rep e 0 mx) j s (.bad f)
  | rep_few {e mn mx s f j} : mx ≠ some 0 → 0 < mn → Reports G tr e j s (.bad f) →
      Reports G tr (.rep e mn mx) j s (.bad f)
  | rep_more_bad {e mn mx s r ns f j j'} : mx ≠ some 0 → Reports G tr e j s (.ok r ns j') →
      Reports G tr (.rep e (mn - 1) (mx.map (· - 1))) j' r (.bad f) →
      Reports G tr (.rep e mn mx) j s (.bad f)
  -- rule call
  | call_ok {n e s r ns j j'} : G n = some e → Reports G tr e (j.enter tr n) s (.ok r ns j') →
      Reports G tr (.ruleName n) j s (.ok r [.rule n ns] j')
  | call_bad {n e s f j} : G n = some e → Reports G tr e (j.enter tr n) s (.bad f) →
      Reports G tr (.ruleName n) j s (.bad f)
  | call_missing {n s j} : G n = none →
      Reports G tr (.ruleName n) j s (.bad ⟨.missingRule n, .critical, s, (j.enter tr n).rules⟩)

/-- The tree accepted for a whole text by the rule `main`. (The text has to be ASCII: see below.) -/
def Accepts (G : Str → Option Expr) (tr : Bool) (s : Str) (t : Node) : Prop :=
  Ascii s ∧ ∃ j, Reports G tr (.ruleName c!"main") .blank s (.ok [] [t] j)

/-- The text counts as incompletely read: something is left, or there are fewer characters than bytes. -/
def Incomplete (s q : Str) : Prop := q ≠ [] ∨ ¬ Ascii s

/-- The fault of a text that the rule `main` does not match up to its end. -/
inductive Rejects (G : Str → Option Expr) (tr : Bool) (s : Str) : Fault → Prop
  | failed {f} : Reports G tr (.ruleName c!"main") .blank s (.bad f) → Rejects G tr s f
  /-- text is left over: the fault at which the latest repetition stopped ... -/
  | kept {q ns j f} : Reports G tr (.ruleName c!"main") .blank s (.ok q ns j) → Incomplete s q →
      j.kept = some f → Rejects G tr s f
  /-- ... or the place up to which the text was matched, if no repetition was cut short -/
  | unread {q ns j} : Reports G tr (.ruleName c!"main") .blank s (.ok q ns j) → Incomplete s q →
      j.kept = none → Rejects G tr s ⟨.notConsumed, .normal, q, j.rules⟩

/-- `b` is what `line_before` is for the point of `text` where `rest` is left: the bytes from the number of
characters before the line to the number of characters before the point. (On ASCII texts this is the part
of the line before the point.) -/
def Sees (text rest b : Str) : Prop :=
  ∃ pre a c, text = pre ++ rest ∧ text = a ++ b ++ c ∧
    byteLen a = pre.length - (lastLine pre).length ∧ byteLen (a ++ b) = pre.length

/-- The error value that tells a fault: all its fields. -/
structure Describes (text : Str) (f : Fault) (e : Error) : Prop where
  descr : e.descr = f.why
  priority : e.priority = f.prio
  parsingRules : e.parsingRules = f.rules
  pos : ∃ pre, text = pre ++ f.rest ∧ CoordsOf pre e.pos
  lineBefore : Sees text f.rest e.lineBefore
  lineAfter : e.lineAfter = f.rest.takeWhile (fun c => c ≠ '\n' ∧ c ≠ '\r')

/-- There is no `line_before` for the point where `rest` is left: the bytes do not delimit characters. -/
def Blind (text rest : Str) : Prop := ∀ b, ¬ Sees text rest b

/-- Matching `e` raises a fault, possibly one that would be recovered from, at a blind point. -/
inductive Crashes (G : Str → Option Expr) (tr : Bool) (text : Str) : Expr → Journal → Str → Prop
  | atom {a j s f} : Reports G tr (.simple a) j s (.bad f) → Blind text f.rest →
      Crashes G tr text (.simple a) j s
  | and_head {e es j s} : Crashes G tr text e j s → Crashes G tr text (.and (e :: es)) j s
  | and_tail {e es j s r ns j'} : Reports G tr e j s (.ok r ns j') → Crashes G tr text (.and es) j' r →
      Crashes G tr text (.and (e :: es)) j s
  | or_nil {j s} : Blind text s → Crashes G tr text (.or []) j s
  | or_head {e es j s} : Crashes G tr text e j s → Crashes G tr text (.or (e :: es)) j s
  | or_next {e e' es j s f} : Reports G tr e j s (.bad f) → f.prio = .normal →
      Crashes G tr text (.or (e' :: es)) j s → Crashes G tr text (.or (e :: e' :: es)) j s
  | not_head {e j s} : Crashes G tr text e j s → Crashes G tr text (.not e) j s
  | not_ok {e j s r ns j'} : Reports G tr e j s (.ok r ns j') → Blind text s → Crashes G tr text (.not e) j s
  | rep_head {e mn mx j s} : mx ≠ some 0 → Crashes G tr text e j s → Crashes G tr text (.rep e mn mx) j s
  | rep_more {e mn mx j s r ns j'} : mx ≠ some 0 → Reports G tr e j s (.ok r ns j') →
      Crashes G tr text (.rep e (mn - 1) (mx.map (· - 1))) j' r → Crashes G tr text (.rep e mn mx) j s
  | call {n e j s} : G n = some e → Crashes G tr text e (j.enter tr n) s →
      Crashes G tr text (.ruleName n) j s
  | call_missing {n j s} : G n = none → Blind text s → Crashes G tr text (.ruleName n) j s

/-- Parsing `s` stops without an answer: a fault is raised at a blind point. -/
inductive Panics (G : Str → Option Expr) (tr : Bool) (s : Str) : Prop
  | matching : Crashes G tr s (.ruleName c!"main") .blank s → Panics G tr s
  | unread {q ns j} : Reports G tr (.ruleName c!"main") .blank s (.ok q ns j) → Incomplete s q →
      j.kept = none → Blind s q → Panics G tr s

end DP.Spec
