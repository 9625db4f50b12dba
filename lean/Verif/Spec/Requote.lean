/-
Independent specification: writing every single-quoted literal of a document between double quotes, with the escapes it
needs, and expressions whose literals and messages have every backslash doubled.
-/
import Verif.Spec.PegPrint
import Verif.Spec.RustCode

namespace DP.Spec.Syntax

/-! ### Single quotes become double quotes -/

/-- `'b'` becomes `"b"`, with the escapes needed for it to denote `b` -/
def Lit.requote : Lit → Lit
  | .single b => litOf b
  | .double ps => .double ps

mutual
def Atom.requote : Atom → Atom
  | .lit l => .lit l.requote
  | .cls cs rs => .cls cs rs
  | .ref n => .ref n
  | .dot => .dot
  | .par g1 e g2 => .par g1 e.requote g2
def Item.requote : Item → Item
  | .plain a => .plain a.requote
  | .star a => .star a.requote
  | .plus a => .plus a.requote
  | .opt a => .opt a.requote
  | .not a => .not a.requote
def Seq.requote : Seq → Seq
  | .err g1 g2 l g3 => .err g1 g2 l.requote g3
  | .item i t => .item i.requote t.requote
def Tail.requote : Tail → Tail
  | .nil => .nil
  | .item g i t => .item g i.requote t.requote
  | .err g g1 g2 l g3 t => .err g g1 g2 l.requote g3 t.requote
def Alt.requote : Alt → Alt
  | .one s => .one s.requote
  | .cons s g1 g2 a => .cons s.requote g1 g2 a.requote
end

mutual
def Def.requote : Def → Def
  | .rule n g1 g2 e t => .rule n g1 g2 e.requote t
  | .module n g1 g2 ds t => .module n g1 g2 ds.requote t
def Defs.requote : Defs → Defs
  | .one d => .one d.requote
  | .cons d ds => .cons d.requote ds.requote
end

def Doc.requote (d : Doc) : Doc := ⟨d.before, d.defs.requote⟩

/-! ### Double-quoted literals without backslash -/

/-- a literal between double quotes does not denote a text with a backslash -/
def Lit.Clean : Lit → Prop
  | .single _ => True
  | .double ps => '\\' ∉ ps.map Piece.val

mutual
def Atom.Clean : Atom → Prop
  | .lit l => l.Clean
  | .cls _ _ => True
  | .ref _ => True
  | .dot => True
  | .par _ e _ => e.Clean
def Item.Clean : Item → Prop
  | .plain a => a.Clean
  | .star a => a.Clean
  | .plus a => a.Clean
  | .opt a => a.Clean
  | .not a => a.Clean
def Seq.Clean : Seq → Prop
  | .err _ _ l _ => l.Clean
  | .item i t => i.Clean ∧ t.Clean
def Tail.Clean : Tail → Prop
  | .nil => True
  | .item _ i t => i.Clean ∧ t.Clean
  | .err _ _ _ l _ t => l.Clean ∧ t.Clean
def Alt.Clean : Alt → Prop
  | .one s => s.Clean
  | .cons s _ _ a => s.Clean ∧ a.Clean
end

mutual
def Def.Clean : Def → Prop
  | .rule _ _ _ e _ => e.Clean
  | .module _ _ _ ds _ => ds.Clean
def Defs.Clean : Defs → Prop
  | .one d => d.Clean
  | .cons d ds => d.Clean ∧ ds.Clean
end

def Doc.Clean (d : Doc) : Prop := d.defs.Clean

end DP.Spec.Syntax

namespace DP.Spec

/-! ### Doubled backslashes -/

mutual
/-- the backslashes of literals and messages doubled -/
def doubledE : Expr → Expr
  | .simple (.literal v) => .simple (.literal (Syntax.doubled v))
  | .simple (.error v) => .simple (.error (Syntax.doubled v))
  | .simple a => .simple a
  | .and es => .and (doubledL es)
  | .or es => .or (doubledL es)
  | .not e => .not (doubledE e)
  | .rep e mn mx => .rep (doubledE e) mn mx
  | .ruleName n => .ruleName n
def doubledL : List Expr → List Expr
  | [] => []
  | e :: es => doubledE e :: doubledL es
end

/-- `Emittable` whatever the literals and messages are -/
inductive EmitShape : Expr → Prop
  | literal {l} : EmitShape (.simple (.literal l))
  | error {m} : EmitShape (.simple (.error m))
  | dot : EmitShape (.simple .dot)
  | cls {cs rs} : RawStr cs → rs ≠ [] → (∀ r ∈ rs, CharLit r.1 ∧ CharLit r.2) → EmitShape (.simple (.mtch cs rs))
  | ref {n} : RawStr n → EmitShape (.ruleName n)
  | and {es} : (∀ e ∈ es, EmitShape e) → EmitShape (.and es)
  | or {es} : (∀ e ∈ es, EmitShape e) → EmitShape (.or es)
  | not {e} : EmitShape e → EmitShape (.not e)
  | rep {e mn mx} : EmitShape e → EmitShape (.rep e mn mx)

end DP.Spec
