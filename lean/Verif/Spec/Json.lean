/-
Independent specification: JSON (RFC 8259), as far as it is ASCII. Values, the texts that stand for a value, a way to write
each value, and how a value is read from a tree.
-/
import Verif.Spec.Tree

namespace DP.Spec

/-- Strings are sequences of UTF-16 code units, as `\u` writes them; of a number the text is kept. -/
inductive Json
  | null
  | bool (b : Bool)
  | num (text : Str)
  | str (units : List Nat)
  | arr (vs : List Json)
  | obj (ms : List (List Nat × Json))

/-! ### The texts of a value -/

/-- RFC 8259 section 2, `ws` -/
def JBlank (w : Str) : Prop := ∀ c ∈ w, c = ' ' ∨ c = '\t' ∨ c = '\n' ∨ c = '\r'

def JDigits (u : Str) : Prop := ∀ c ∈ u, '0' ≤ c ∧ c ≤ '9'

/-- RFC 8259 section 6, `number` -/
def IsNumber (u : Str) : Prop :=
  ∃ minus int frac exp, u = minus ++ int ++ frac ++ exp ∧
    (minus = [] ∨ minus = ['-']) ∧
    (int = ['0'] ∨ ∃ d ds, int = d :: ds ∧ '1' ≤ d ∧ d ≤ '9' ∧ JDigits ds) ∧
    (frac = [] ∨ ∃ ds, frac = '.' :: ds ∧ ds ≠ [] ∧ JDigits ds) ∧
    (exp = [] ∨ ∃ e sign ds, exp = e :: (sign ++ ds) ∧ (e = 'e' ∨ e = 'E') ∧ (sign = [] ∨ sign = ['+'] ∨ sign = ['-']) ∧ ds ≠ [] ∧ JDigits ds)

/-- the value of a hexadecimal digit -/
def jHex (c : Char) : Option Nat :=
  if '0' ≤ c ∧ c ≤ '9' then some (c.toNat - 48)
  else if 'A' ≤ c ∧ c ≤ 'F' then some (c.toNat - 55)
  else if 'a' ≤ c ∧ c ≤ 'f' then some (c.toNat - 87)
  else none

/-- RFC 8259 section 7: the escapes of two characters -/
def shortEscapes : List (Char × Nat) :=
  [('"', 34), ('\\', 92), ('/', 47), ('b', 8), ('f', 12), ('n', 10), ('r', 13), ('t', 9)]

/-- RFC 8259 section 7, `char`, without the characters that are not ASCII -/
inductive JChar : Nat → Str → Prop
  | plain {c : Char} : 32 ≤ c.toNat → c.toNat < 128 → c ≠ '"' → c ≠ '\\' → JChar c.toNat [c]
  | short {c n} : (c, n) ∈ shortEscapes → JChar n ['\\', c]
  | hex {a b c d x y z w} : jHex a = some x → jHex b = some y → jHex c = some z → jHex d = some w →
      JChar (((x * 16 + y) * 16 + z) * 16 + w) ['\\', 'u', a, b, c, d]

/-- RFC 8259 section 7, `string` -/
inductive JChars : List Nat → Str → Prop
  | nil : JChars [] []
  | cons {n u ns v} : JChar n u → JChars ns v → JChars (n :: ns) (u ++ v)

def StrText (us : List Nat) (u : Str) : Prop := ∃ v, u = '"' :: (v ++ ['"']) ∧ JChars us v

/-- what a text can stand for: a value, the values of an array, the members of an object -/
inductive JPiece
  | value (v : Json)
  | items (vs : List Json)
  | members (ms : List (List Nat × Json))

/-- RFC 8259 sections 3 to 5. White space is allowed before and after each value, key, comma and colon. -/
inductive JText : JPiece → Str → Prop
  | null : JText (.value .null) c!"null"
  | true : JText (.value (.bool true)) c!"true"
  | false : JText (.value (.bool false)) c!"false"
  | num {u} : IsNumber u → JText (.value (.num u)) u
  | str {us u} : StrText us u → JText (.value (.str us)) u
  | arr_nil {w} : JBlank w → JText (.value (.arr [])) ('[' :: (w ++ [']']))
  | arr {vs u} : JText (.items vs) u → JText (.value (.arr vs)) ('[' :: (u ++ [']']))
  | obj_nil {w} : JBlank w → JText (.value (.obj [])) ('{' :: (w ++ ['}']))
  | obj {ms u} : JText (.members ms) u → JText (.value (.obj ms)) ('{' :: (u ++ ['}']))
  | item {w v u w'} : JBlank w → JText (.value v) u → JBlank w' → JText (.items [v]) (w ++ (u ++ w'))
  | items {w v u w' vs x} : JBlank w → JText (.value v) u → JBlank w' → JText (.items vs) x →
      JText (.items (v :: vs)) (w ++ (u ++ (w' ++ (',' :: x))))
  | member {w k y w1 w2 v u w'} : JBlank w → StrText k y → JBlank w1 → JBlank w2 → JText (.value v) u → JBlank w' →
      JText (.members [(k, v)]) (w ++ (y ++ (w1 ++ (':' :: (w2 ++ (u ++ w'))))))
  | members {w k y w1 w2 v u w' ms x} : JBlank w → StrText k y → JBlank w1 → JBlank w2 → JText (.value v) u → JBlank w' → JText (.members ms) x →
      JText (.members ((k, v) :: ms)) (w ++ (y ++ (w1 ++ (':' :: (w2 ++ (u ++ (w' ++ (',' :: x))))))))

/-- RFC 8259 section 2: a text of the value `v` -/
def JsonText (v : Json) (s : Str) : Prop := ∃ w u w', s = w ++ (u ++ w') ∧ JBlank w ∧ JText (.value v) u ∧ JBlank w'

/-! ### Values read from trees -/

/-- the code unit that a text stands for -/
def unitOf : Str → Nat
  | [c] => c.toNat
  | ['\\', c] => (shortEscapes.lookup c).getD 0
  | ['\\', 'u', a, b, c, d] => (((jHex a).getD 0 * 16 + (jHex b).getD 0) * 16 + (jHex c).getD 0) * 16 + (jHex d).getD 0
  | _ => 0

/-- those of the nodes `char` -/
def unitsIn : List Node → List Nat
  | .rule n ns :: rest => (if n = c!"char" then [unitOf (textL ns)] else []) ++ unitsIn rest
  | _ :: rest => unitsIn rest
  | [] => []

mutual
/-- the value that a node stands for, if it does -/
def jsonOf : Node → Option Json
  | .rule n ns =>
    if n = c!"main" ∨ n = c!"value" then (valuesIn ns).head?
    else if n = c!"object" then some (.obj (membersIn ns))
    else if n = c!"array" then some (.arr (valuesIn ns))
    else if n = c!"string" then some (.str (unitsIn ns))
    else if n = c!"number" then some (.num (textL ns))
    else if n = c!"word" then
      (if textL ns = c!"true" then some (.bool true) else if textL ns = c!"false" then some (.bool false) else some .null)
    else none
  | _ => none
/-- those of some nodes -/
def valuesIn : List Node → List Json
  | [] => []
  | n :: ns => (jsonOf n).toList ++ valuesIn ns
/-- a node `member` has a key and a value -/
def membersIn : List Node → List (List Nat × Json)
  | [] => []
  | n :: ns => memberOf n ++ membersIn ns
def memberOf : Node → List (List Nat × Json)
  | .rule n ns =>
    if n = c!"member" then
      (match valuesIn ns with
      | [.str k, v] => [(k, v)]
      | _ => [])
    else []
  | _ => []
end

/-! ### One text for each value -/

def jHexChar (n : Nat) : Char := if n < 10 then Char.ofNat (48 + n) else Char.ofNat (87 + n)

/-- letters, digits and so on as they are, everything else as `\u` and four digits -/
def writeUnit (n : Nat) : Str :=
  if 32 ≤ n ∧ n < 127 ∧ n ≠ 34 ∧ n ≠ 92 then [Char.ofNat n]
  else ['\\', 'u', jHexChar (n / 4096 % 16), jHexChar (n / 256 % 16), jHexChar (n / 16 % 16), jHexChar (n % 16)]

def writeString (us : List Nat) : Str := '"' :: (us.flatMap writeUnit ++ ['"'])

mutual
def writeJson : Json → Str
  | .null => c!"null"
  | .bool true => c!"true"
  | .bool false => c!"false"
  | .num u => u
  | .str us => writeString us
  | .arr vs => '[' :: (writeItems vs ++ [']'])
  | .obj ms => '{' :: (writeMembers ms ++ ['}'])
def writeItems : List Json → Str
  | [] => []
  | v :: vs => writeJson v ++ writeMoreItems vs
def writeMoreItems : List Json → Str
  | [] => []
  | v :: vs => ',' :: (writeJson v ++ writeMoreItems vs)
def writeMember : List Nat × Json → Str
  | (k, v) => writeString k ++ (':' :: writeJson v)
def writeMembers : List (List Nat × Json) → Str
  | [] => []
  | m :: ms => writeMember m ++ writeMoreMembers ms
def writeMoreMembers : List (List Nat × Json) → Str
  | [] => []
  | m :: ms => ',' :: (writeMember m ++ writeMoreMembers ms)
end

mutual
/-- the numbers are numbers and the code units have 16 bits -/
def Json.Proper : Json → Prop
  | .num u => IsNumber u
  | .str us => ∀ n ∈ us, n < 65536
  | .arr vs => properAll vs
  | .obj ms => properMembers ms
  | _ => True
def properAll : List Json → Prop
  | [] => True
  | v :: vs => v.Proper ∧ properAll vs
def properMember : List Nat × Json → Prop
  | (k, v) => (∀ n ∈ k, n < 65536) ∧ v.Proper
def properMembers : List (List Nat × Json) → Prop
  | [] => True
  | m :: ms => properMember m ∧ properMembers ms
end

end DP.Spec
