/-
Independent specification: putting other characters in the place of characters.
-/
import Verif.Spec.Refs

namespace DP.Spec

/-- the atom with other characters; the message of `error` is not text to be matched and stays -/
def swapAtom (π : Char → Char) : Atom → Atom
  | .literal l => .literal (l.map π)
  | .mtch cs rs => .mtch (cs.map π) (rs.map fun r => (π r.1, π r.2))
  | a => a

mutual
/-- the expression with other atoms -/
def swapExpr (α : Atom → Atom) : Expr → Expr
  | .simple a => .simple (α a)
  | .and es => .and (swapExprs α es)
  | .or es => .or (swapExprs α es)
  | .not e => .not (swapExpr α e)
  | .rep e mn mx => .rep (swapExpr α e) mn mx
  | .ruleName n => .ruleName n
def swapExprs (α : Atom → Atom) : List Expr → List Expr
  | [] => []
  | e :: es => swapExpr α e :: swapExprs α es
end

def swapRules (α : Atom → Atom) (R : SetOfRules) : SetOfRules := ⟨R.entries.map fun x => (x.1, swapExpr α x.2)⟩

mutual
/-- the tree with other characters in its leaves; the names of rules stay -/
def swapNode (π : Char → Char) : Node → Node
  | .val v => .val (v.map π)
  | .eof => .eof
  | .rule n ns => .rule n (swapNodes π ns)
def swapNodes (π : Char → Char) : List Node → List Node
  | [] => []
  | t :: ts => swapNode π t :: swapNodes π ts
end

/-- what is reported when an atom does not match -/
def complaint : Atom → Descr
  | .literal l => .literal l
  | .mtch cs rs => .mtch cs rs
  | .error m => .custom m
  | .dot => .dot
  | .eof => .eof

/-- the description that is about the new atom in place of the old one -/
def swapDescr (α : Atom → Atom) : Descr → Descr
  | .literal l => complaint (α (.literal l))
  | .mtch cs rs => complaint (α (.mtch cs rs))
  | .custom m => complaint (α (.error m))
  | .dot => complaint (α .dot)
  | .eof => complaint (α .eof)
  | d => d

/-- the error with other atoms in what was expected and other characters in the line shown -/
def swapError (α : Atom → Atom) (π : Char → Char) (e : Error) : Error :=
  { e with descr := swapDescr α e.descr, lineBefore := e.lineBefore.map π, lineAfter := e.lineAfter.map π }

def swapAnswer (α : Atom → Atom) (π : Char → Char) : Out Error Node → Out Error Node
  | .ok t => .ok (swapNode π t)
  | .err e => .err (swapError α π e)
  | .panic => .panic
  | .diverge => .diverge

/-- `π` respects what the parser knows of characters by itself: the ends of lines and the number of bytes -/
structure Harmless (π : Char → Char) : Prop where
  newline : ∀ c, π c = '\n' ↔ c = '\n'
  carriage : ∀ c, π c = '\r' ↔ c = '\r'
  bytes : ∀ c, (π c).utf8Size = c.utf8Size

/-- the second atom does with the new characters what the first does with the old ones -/
inductive Mirrors (π : Char → Char) : Atom → Atom → Prop
  | literal {l} : (∀ a ∈ l, ∀ c, π c = π a → c = a) → Mirrors π (.literal l) (.literal (l.map π))
  | mtch {cs rs cs' rs'} : (∀ c, InClass cs' rs' (π c) ↔ InClass cs rs c) → Mirrors π (.mtch cs rs) (.mtch cs' rs')
  | error (m m') : Mirrors π (.error m) (.error m')
  | dot : Mirrors π .dot .dot
  | eof : c!"EOF".map π = c!"EOF" → Mirrors π .eof .eof

/-- the atom occurs in the expression -/
inductive HasAtom : Expr → Atom → Prop
  | here (a) : HasAtom (.simple a) a
  | and {es e a} : e ∈ es → HasAtom e a → HasAtom (.and es) a
  | or {es e a} : e ∈ es → HasAtom e a → HasAtom (.or es) a
  | not {e a} : HasAtom e a → HasAtom (.not e) a
  | rep {e mn mx a} : HasAtom e a → HasAtom (.rep e mn mx) a

/-- the rules that `main` leads to do not tell the two characters apart: they are equal if one of them is in a literal, they are in the same
classes, and they are the same to the parser itself. (The EOF atom leaves a leaf "EOF", as a literal "EOF" would.) -/
structure Interchangeable (R : SetOfRules) (c d : Char) : Prop where
  newline : c = '\n' ↔ d = '\n'
  carriage : c = '\r' ↔ d = '\r'
  bytes : c.utf8Size = d.utf8Size
  literal : ∀ n e l, Reach (grammar R) n → R.get n = some e → HasAtom e (.literal l) → c ∈ l ∨ d ∈ l → c = d
  mtch : ∀ n e cs rs, Reach (grammar R) n → R.get n = some e → HasAtom e (.mtch cs rs) → (InClass cs rs c ↔ InClass cs rs d)
  eof : ∀ n e, Reach (grammar R) n → R.get n = some e → HasAtom e .eof → c ∈ c!"EOF" ∨ d ∈ c!"EOF" → c = d

mutual
/-- the tree without the characters of its leaves -/
def nodeShape : Node → Node
  | .val v => .val (v.map fun _ => ' ')
  | .eof => .eof
  | .rule n ns => .rule n (nodeShapes ns)
def nodeShapes : List Node → List Node
  | [] => []
  | t :: ts => nodeShape t :: nodeShapes ts
end

/-- the answer without the characters of the text: of an error, all but the line shown -/
def answerShape : Out Error Node → Out (Pos × Descr × List Str × Prio × Nat × Nat) Node
  | .ok t => .ok (nodeShape t)
  | .err e => .err (e.pos, e.descr, e.parsingRules, e.priority, e.lineBefore.length, e.lineAfter.length)
  | .panic => .panic
  | .diverge => .diverge

end DP.Spec
