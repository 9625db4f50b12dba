/-
Independent specification: which definition of a name counts in a PEG text, and which texts have no meaning.
-/
import Verif.Spec.PegSyntax

namespace DP.Spec.Syntax

/-- the expression a rule gives to a name -/
def Def.ruleFor (x : Str) : Def → Option Expr
  | .rule n _ _ e _ => if x = n then e.denote.map altOf else none
  | .module _ _ _ _ _ => none

/-- the last rule for a name, not looking into modules -/
def Defs.lastRule (x : Str) : Defs → Option Expr
  | .one d => d.ruleFor x
  | .cons d ds => (ds.lastRule x).or (d.ruleFor x)

mutual
/-- the first module with a rule for a name, and there again the last rule, or the first inner module -/
def Def.inModule (x : Str) : Def → Option Expr
  | .rule _ _ _ _ _ => none
  | .module _ _ _ ds _ => (ds.lastRule x).or (ds.firstModule x)
def Defs.firstModule (x : Str) : Defs → Option Expr
  | .one d => d.inModule x
  | .cons d ds => (d.inModule x).or (ds.firstModule x)
end

mutual
/-- the names written on the left of `=`, also inside modules -/
def Def.names : Def → List Str
  | .rule n _ _ _ _ => [n]
  | .module _ _ _ ds _ => ds.names
def Defs.names : Defs → List Str
  | .one d => d.names
  | .cons d ds => d.names ++ ds.names
end

/-! Texts without meaning: an empty single-quoted literal, or an `error(...)` that is followed by more
elements in its sequence. -/

def Lit.Empty : Lit → Prop
  | .single b => b = []
  | .double _ => False

mutual
def Atom.Bad : Atom → Prop
  | .lit l => l.Empty
  | .par _ e _ => e.Bad
  | _ => False
def Item.Bad : Item → Prop
  | .plain a => a.Bad
  | .star a => a.Bad
  | .plus a => a.Bad
  | .opt a => a.Bad
  | .not a => a.Bad
def Seq.Bad : Seq → Prop
  | .err _ _ l _ => l.Empty
  | .item i t => i.Bad ∨ t.Bad
def Tail.Bad : Tail → Prop
  | .nil => False
  | .item _ i t => i.Bad ∨ t.Bad
  | .err _ _ _ l _ t => l.Empty ∨ t ≠ .nil
def Alt.Bad : Alt → Prop
  | .one s => s.Bad
  | .cons s _ _ a => s.Bad ∨ a.Bad
end

mutual
def Def.Bad : Def → Prop
  | .rule _ _ _ e _ => e.Bad
  | .module _ _ _ ds _ => ds.Bad
def Defs.Bad : Defs → Prop
  | .one d => d.Bad
  | .cons d ds => d.Bad ∨ ds.Bad
end

/-! Escaping of literals, character by character. -/

/-- `\r`, `\n`, `\t`, `\\` and `\"` -/
def escapeChar (c : Char) : Str :=
  if c = '\r' then c!"\\r" else if c = '\n' then c!"\\n" else if c = '\t' then c!"\\t"
  else if c = '\\' then c!"\\\\" else if c = '"' then c!"\\\"" else [c]

/-- a text between double quotes -/
def quoted (v : Str) : Str := c!"\"" ++ v.flatMap escapeChar ++ c!"\""

end DP.Spec.Syntax
