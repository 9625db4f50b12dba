/-
Independent specification: tables written as RFC 4180 says (without a line break after the last record). The texts that stand for
a table, a way to write each table, and how a table is read from a tree.
-/
import Verif.Spec.Tree

namespace DP.Spec

/-! ### The texts of a table -/

/-- RFC 4180 section 2, `TEXTDATA` -/
def TextData (c : Char) : Prop := 32 ≤ c.toNat ∧ c.toNat < 127 ∧ c ≠ '"' ∧ c ≠ ','

/-- what can be between quotes: the value and how it is written; a quote is doubled -/
inductive InQuotes : Str → Str → Prop
  | nil : InQuotes [] []
  | char {c v u} : TextData c ∨ c = ',' ∨ c = '\r' ∨ c = '\n' → InQuotes v u → InQuotes (c :: v) (c :: u)
  | quote {v u} : InQuotes v u → InQuotes ('"' :: v) ('"' :: '"' :: u)

/-- RFC 4180 section 2, `field`: the value and a text of it -/
inductive FieldText : Str → Str → Prop
  | plain {u} : (∀ c ∈ u, TextData c) → FieldText u u
  | quoted {v u} : InQuotes v u → FieldText v ('"' :: (u ++ ['"']))

/-- RFC 4180 section 2, `record` -/
inductive RecordText : List Str → Str → Prop
  | one {v u} : FieldText v u → RecordText [v] u
  | more {v u vs w} : FieldText v u → RecordText vs w → RecordText (v :: vs) (u ++ (',' :: w))

/-- RFC 4180 section 2, `file` -/
inductive TableText : List (List Str) → Str → Prop
  | one {r u} : RecordText r u → TableText [r] u
  | more {r u rs w} : RecordText r u → TableText rs w → TableText (r :: rs) (u ++ ('\r' :: '\n' :: w))

/-! ### Tables read from trees -/

/-- the texts of the nodes `part` -/
def partsIn : List Node → List Str
  | .rule n ns :: rest => (if n = c!"part" then [textL ns] else []) ++ partsIn rest
  | _ :: rest => partsIn rest
  | [] => []

/-- with a quote between two of them -/
def joinQuote : List Str → Str
  | [] => []
  | [p] => p
  | p :: q :: ps => p ++ ('"' :: joinQuote (q :: ps))

/-- the value of a field -/
def cellOf (ns : List Node) : Str := if partsIn ns = [] then textL ns else joinQuote (partsIn ns)

/-- those of the nodes `field` -/
def cellsIn : List Node → List Str
  | .rule n ns :: rest => (if n = c!"field" then [cellOf ns] else []) ++ cellsIn rest
  | _ :: rest => cellsIn rest
  | [] => []

/-- the records of the nodes `record` -/
def recordsIn : List Node → List (List Str)
  | .rule n ns :: rest => (if n = c!"record" then [cellsIn ns] else []) ++ recordsIn rest
  | _ :: rest => recordsIn rest
  | [] => []

def tableOf : Node → List (List Str)
  | .rule _ ns => recordsIn ns
  | _ => []

/-! ### One text for each table -/

def doubleQuotes : Str → Str
  | [] => []
  | c :: v => if c = '"' then '"' :: '"' :: doubleQuotes v else c :: doubleQuotes v

/-- always between quotes -/
def writeField (v : Str) : Str := '"' :: (doubleQuotes v ++ ['"'])

def writeRecord : List Str → Str
  | [] => []
  | [v] => writeField v
  | v :: w :: vs => writeField v ++ (',' :: writeRecord (w :: vs))

def writeTable : List (List Str) → Str
  | [] => []
  | [r] => writeRecord r
  | r :: q :: rs => writeRecord r ++ ('\r' :: '\n' :: writeTable (q :: rs))

end DP.Spec
