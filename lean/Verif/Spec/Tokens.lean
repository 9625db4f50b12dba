/-
Independent specification: the tokens of a PEG text, that is, its text without blanks and comments, and the
layout with one token per line.
-/
import Verif.Spec.Complaint

namespace DP.Spec.Syntax

/-- `error(...)` -/
def errTokens (l : Lit) : List Str := [c!"error", c!"(", l.str, c!")"]

mutual
def Atom.tokens : Atom → List Str
  | .lit l => [l.str]
  | .cls cs rs => ['[' :: cs ++ rangesStr rs ++ [']']]
  | .ref n => [n]
  | .dot => [c!"."]
  | .par _ e _ => c!"(" :: e.tokens ++ [c!")"]
def Item.tokens : Item → List Str
  | .plain a => a.tokens
  | .star a => a.tokens ++ [c!"*"]
  | .plus a => a.tokens ++ [c!"+"]
  | .opt a => a.tokens ++ [c!"?"]
  | .not a => c!"!" :: a.tokens
def Seq.tokens : Seq → List Str
  | .err _ _ l _ => errTokens l
  | .item i t => i.tokens ++ t.tokens
def Tail.tokens : Tail → List Str
  | .nil => []
  | .item _ i t => i.tokens ++ t.tokens
  | .err _ _ _ l _ t => errTokens l ++ t.tokens
def Alt.tokens : Alt → List Str
  | .one s => s.tokens
  | .cons s _ _ a => s.tokens ++ c!"/" :: a.tokens
end

mutual
def Def.tokens : Def → List Str
  | .rule n _ _ e _ => n :: c!"=" :: e.tokens
  | .module n _ _ ds _ => n :: c!"{" :: ds.tokens ++ [c!"}"]
def Defs.tokens : Defs → List Str
  | .one d => d.tokens
  | .cons d ds => d.tokens ++ ds.tokens
end

def Doc.tokens (d : Doc) : List Str := d.defs.tokens

/-- `*`, `+` and `?` stay with what they repeat -/
def Postfix (t : Str) : Prop := t = c!"*" ∨ t = c!"+" ∨ t = c!"?"

instance (t : Str) : Decidable (Postfix t) := by unfold Postfix; infer_instance

/-- the end of line before a token, if there is one -/
def lineBefore : List Str → Str
  | [] => c!"\n"
  | t :: _ => if Postfix t then [] else c!"\n"

/-- one token per line; `!` stays with what follows it, and the repetition signs with what they repeat -/
def onePerLine : List Str → Str
  | [] => []
  | t :: ts => t ++ (if t = c!"!" then [] else lineBefore ts) ++ onePerLine ts

end DP.Spec.Syntax
