/-
Independent specification: what `rules_from_peg` complains about when a text is written in the concrete
syntax but has no meaning. Two things make a document meaningless: an empty literal between single quotes,
and an `error(...)` that is not the last element of its sequence. The complaint is about the first of them
in reading order; it names the cause and the constructs around it, from the outside in.
-/
import Verif.Spec.PegSyntax
import Verif.Model.Peg

namespace DP.Spec.Syntax

/-- where (constructs from the outside in) and why -/
structure Complaint where
  path : List Str
  cause : Str
deriving Repr, DecidableEq

/-- inside of `ds` -/
def Complaint.within (ds : List Str) (p : Complaint) : Complaint := ⟨ds ++ p.path, p.cause⟩

/-- the error value: one level of `peg::Error::Peg` for each construct around an `ast::Error` -/
def Complaint.error (p : Complaint) : PegError := p.path.foldr (fun d e => .peg d (some e)) (.ast ⟨p.cause, none⟩)

/-- the first fault of two parts -/
def first : Option Complaint → Option Complaint → Option Complaint
  | some p, _ => some p
  | none, q => q

/-- within constructs -/
def within (ds : List Str) (p : Option Complaint) : Option Complaint := p.map (Complaint.within ds)

def Lit.fault : Lit → Option Complaint
  | .single [] => some ⟨[c!"consuming literal", c!"consuming lit_noesc"], c!"expected Val node"⟩
  | _ => none

mutual
def Atom.fault : Atom → Option Complaint
  | .lit l => within [c!"consuming atom_or_par", c!"n:atom", c!"consuming atom", c!"n:literal"] l.fault
  | .par _ e _ => within [c!"consuming atom_or_par", c!"n:parenth", c!"consuming parenth", c!"consuming expr", c!"or:"] e.fault
  | .cls _ _ => none
  | .ref _ => none
  | .dot => none
def Item.fault : Item → Option Complaint
  | .plain a => within [c!"consuming rep_or_neg"] a.fault
  | .star a => within [c!"consuming rep_or_neg"] a.fault
  | .plus a => within [c!"consuming rep_or_neg"] a.fault
  | .opt a => within [c!"consuming rep_or_neg"] a.fault
  | .not a => within [c!"consuming rep_or_neg"] a.fault
def Seq.fault : Seq → Option Complaint
  | .err _ _ l _ => within [c!"consuming and", c!"consuming error"] l.fault
  | .item i t => within [c!"consuming and"] (first i.fault t.fault)
/-- each element is one level deeper than the one before it -/
def Tail.fault : Tail → Option Complaint
  | .nil => none
  | .item _ i t => within [c!"consuming and"] (first i.fault t.fault)
  | .err _ _ _ l _ .nil => within [c!"consuming and", c!"consuming error"] l.fault
  | .err _ _ _ l _ _ => first (within [c!"consuming and", c!"consuming error"] l.fault) (some ⟨[], c!"expected end rule for and"⟩)
/-- each alternative is one level deeper than the one before it -/
def Alt.fault : Alt → Option Complaint
  | .one s => within [c!"consuming or"] s.fault
  | .cons s _ _ a => within [c!"consuming or"] (first s.fault a.fault)
end

mutual
def Def.fault : Def → Option Complaint
  | .rule _ _ _ e _ => within [c!"consuming rule", c!"consuming expr", c!"or:"] e.fault
  | .module _ _ _ ds _ => within [c!"consuming module", c!"consuming grammar"] ds.fault
def Defs.fault : Defs → Option Complaint
  | .one d => d.fault
  | .cons d ds => first d.fault ds.fault
end

def Doc.fault (d : Doc) : Option Complaint := within [c!"consuming main", c!"consuming grammar"] d.defs.fault

end DP.Spec.Syntax
