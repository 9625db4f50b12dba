/-
src/peg/gcode.rs once more, with what it needs: `…Within` allows only so many of its calls to be in progress at a time and is
`none` when that does not suffice; `…Copies` also counts the characters that are written into strings. (Not counted: what a
string copies when it grows, and the steps of the iterators.)
-/
import Verif.Model.Gcode

namespace DP.Gcode

/-! ### Calls in progress -/

/-- src/peg/gcode.rs:103-110 `bounds2code` -/
def bounds2codeWithin : Nat → List (Char × Char) → Option Str
  | 0, _ => none
  | _ + 1, [] => some []
  | d + 1, (f, t) :: rest => (bounds2codeWithin d rest).map fun s => c!", from '" ++ [f] ++ c!"', to '" ++ [t] ++ c!"' " ++ s

/-- src/peg/gcode.rs:102-117 `match_rules2code` -/
def matchRules2codeWithin (d : Nat) (chars : Str) (ranges : List (Char × Char)) : Option Str :=
  match d with
  | 0 => none
  | d + 1 => (bounds2codeWithin d ranges).map fun s => c!"ematch!(chlist r#\"" ++ chars ++ c!"\"#  " ++ s ++ c!")"

/-- src/peg/gcode.rs:85-100 `atom2code` -/
def atom2codeWithin (d : Nat) (a : Atom) : Option Str :=
  match d, a with
  | 0, _ => none
  | _ + 1, .literal s => some (c!"lit!(\"" ++ replaceEsc s ++ c!"\")")
  | _ + 1, .error s => some (c!"error!(\"" ++ replaceEsc s ++ c!"\")")
  | d + 1, .mtch cs rs => matchRules2codeWithin d cs rs
  | _ + 1, .dot => some c!"dot!()"
  | _ + 1, .eof => some c!"eof!()"

mutual
/-- src/peg/gcode.rs:64-73 `expr2code`, with the calls of `mexpr2code` (75-83) and `repeat2code` (119-129) -/
def expr2codeWithin : Nat → Expr → Option Str
  | 0, _ => none
  | d + 1, .simple a => atom2codeWithin d a
  | 0 + 1, .and _ => none
  | d + 1 + 1, .and es => (mexprFoldWithin d [] es).map fun s => c!"and!(" ++ s ++ c!")"
  | 0 + 1, .or _ => none
  | d + 1 + 1, .or es => (mexprFoldWithin d [] es).map fun s => c!"or!(" ++ s ++ c!")"
  | d + 1, .not e => (expr2codeWithin d e).map fun s => c!"not!(" ++ s ++ c!")"
  | 0 + 1, .rep _ _ _ => none
  | d + 1 + 1, .rep e min max => (expr2codeWithin d e).map fun s =>
      c!"rep!(" ++ s ++ c!", " ++ natCode min
        ++ (match max with
            | some m => c!", " ++ natCode m
            | none => [])
        ++ c!")"
  | _ + 1, .ruleName n => some (c!"ref_rule!(r#\"" ++ n ++ c!"\"#)")
/-- the fold of `mexpr2code` -/
def mexprFoldWithin (d : Nat) (acc : Str) : List Expr → Option Str
  | [] => some acc
  | e :: es => (expr2codeWithin d e).bind fun s => mexprFoldWithin d (if acc.isEmpty then s else acc ++ c!", " ++ s) es
end

/-- src/peg/gcode.rs:49-62 `rust_from_rules` and `rule2code`: the fold over the entries in some order -/
def rulesWithin (d : Nat) (acc : Str) : List (Str × Expr) → Option Str
  | [] => some acc
  | (n, e) :: l =>
    match d with
    | 0 => none
    | d' + 1 => (expr2codeWithin d' e).bind fun s => rulesWithin d (addRule acc (c!"r#\"" ++ n ++ c!"\"# => " ++ s)) l

/-! ### Characters written -/

/-- a string that is written: it costs its length -/
def written (s : Str) (k : Nat) : Str × Nat := (s, k + s.length)

/-- src/peg/gcode.rs:86-91: the text is copied (93-95 `to_string`), then written by each of the four `replace` -/
def replaceEscCopies (s : Str) : Str × Nat :=
  let s1 := replaceChar '\n' c!"\\n" s
  let s2 := replaceChar '\r' c!"\\r" s1
  let s3 := replaceChar '\t' c!"\\t" s2
  let s4 := replaceChar '"' c!"\\\"" s3
  (s4, s.length + s1.length + s2.length + s3.length + s4.length)

/-- src/peg/gcode.rs:103-110 `bounds2code`: each call writes the code of all the ranges that follow -/
def bounds2codeCopies : List (Char × Char) → Str × Nat
  | [] => ([], 0)
  | (f, t) :: rest =>
    let (s, k) := bounds2codeCopies rest
    written (c!", from '" ++ [f] ++ c!"', to '" ++ [t] ++ c!"' " ++ s) k

/-- src/peg/gcode.rs:85-117 `atom2code`, `match_rules2code` -/
def atom2codeCopies : Atom → Str × Nat
  | .literal s =>
    let (x, k) := replaceEscCopies s
    written (c!"lit!(\"" ++ x ++ c!"\")") k
  | .error s =>
    let (x, k) := replaceEscCopies s
    written (c!"error!(\"" ++ x ++ c!"\")") k
  | .mtch cs rs =>
    let (x, k) := bounds2codeCopies rs
    written (c!"ematch!(chlist r#\"" ++ cs ++ c!"\"#  " ++ x ++ c!")") k
  | .dot => written c!"dot!()" 0
  | .eof => written c!"eof!()" 0

mutual
/-- src/peg/gcode.rs:64-83 `expr2code`, `mexpr2code`, and 119-129 `repeat2code`: `format!` writes all of its result; a sum of
strings writes what is added, and the numbers are written before that (the upper bound twice, with the comma) -/
def expr2codeCopies : Expr → Str × Nat
  | .simple a => atom2codeCopies a
  | .and es =>
    let (x, k) := mexprFoldCopies ([], 0) es
    written (c!"and!(" ++ x ++ c!")") k
  | .or es =>
    let (x, k) := mexprFoldCopies ([], 0) es
    written (c!"or!(" ++ x ++ c!")") k
  | .not e =>
    let (x, k) := expr2codeCopies e
    written (c!"not!(" ++ x ++ c!")") k
  | .rep e min max =>
    let (x, k) := expr2codeCopies e
    let m := match max with
      | some m => c!", " ++ natCode m
      | none => []
    written (c!"rep!(" ++ x ++ c!", " ++ natCode min ++ m ++ c!")") (k + (natCode min).length + m.length)
  | .ruleName n => written (c!"ref_rule!(r#\"" ++ n ++ c!"\"#)") 0
/-- src/peg/gcode.rs:79-82: the first part is copied (`to_string`), each other one is written after a copy of all before it -/
def mexprFoldCopies (acc : Str × Nat) : List Expr → Str × Nat
  | [] => acc
  | e :: es =>
    let (x, k) := expr2codeCopies e
    mexprFoldCopies (if acc.1.isEmpty then written x (acc.2 + k) else written (acc.1 ++ c!", " ++ x) (acc.2 + k)) es
end

/-- src/peg/gcode.rs:49-62 `rust_from_rules`: `rule2code` writes its result, and `add_rule` writes what it adds -/
def rulesCopies (acc : Str × Nat) : List (Str × Expr) → Str × Nat
  | [] => acc
  | (n, e) :: l =>
    let (x, k) := expr2codeCopies e
    let (r, k) := written (c!"r#\"" ++ n ++ c!"\"# => " ++ x) k
    rulesCopies (addRule acc.1 r, acc.2 + k + 10 + r.length) l

end DP.Gcode
