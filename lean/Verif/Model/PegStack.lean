/-
The second half of `rules_from_peg` (src/peg/mod.rs:201-933) with a bound on the number of calls that may be in progress at
the same time. Unlike the parser, which repeats in the `tail_call` loops of the `idata` crate, the functions that
read the flat tree repeat by calling themselves: `rec_consume_rules_or_modules` (270-289), `rec_consume_dot_symbol` (347-365), `rec_consume_or`
(438-456), `rec_consume_and` (495-516), `rec_consume_lit_esc_ch` (709-723) and `rec_consume_mbetween` (862-876). The fuel of Model/Peg.lean
is that bound: it goes down by one with every call of one of these or of the functions on the way between them
(`consume_peg_expr`, `consume_or`, `consume_and`, `consume_rep_or_neg`, `consume_atom_or_par`, `consume_atom`, `consume_parenth`,
`consume_grammar`, `consume_module`), and is given unchanged to each of the calls made one after the other. (Not counted: the other
functions, of which a fixed number lies between two of these. A compiler may turn a call in tail position into a jump;
Rust does not promise it, and the closures and the `?` around these calls leave values to drop after them.)
-/
import Verif.Model.Peg

namespace DP

/-- what `rules_from_peg` returns when at most `d` of these calls are in progress at any time, `none` if they do not suffice -/
noncomputable def convertWithin (d : Nat) (s : Str) : Option (Out PegError SetOfRules) :=
  match parse s PegRules.parsePeg with
  | .ok ast =>
    match Peg.rulesFromFlatAstF d ((ast.compact.prune [c!"_", c!"_1", c!"_eol"]).flatten) with
    | .diverge => none
    | x => some x
  | .err e => some (.err (.parser e))
  | .panic => some .panic
  | .diverge => some .diverge

end DP
