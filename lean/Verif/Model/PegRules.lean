/-
Model of src/peg/rules.rs (the built-in grammar for PEG texts). Generated from the Rust macros by a
script; one definition per entry. Props/SelfHost.lean (`C42_source_denotes_table`) proves that each definition
is what the source line of the entry denotes.
-/
import Verif.Model.Parser

namespace DP.PegRules

/-- src/peg/rules.rs:5 `dot` -/
def e_dot : Expr :=
  (.simple (.literal c!"."))

/-- src/peg/rules.rs:6 `module` -/
def e_module : Expr :=
  (.and [(.ruleName c!"_"), (.ruleName c!"mod_name"), (.ruleName c!"_"), (.simple (.literal c!"{")), (.ruleName c!"_"), (.ruleName c!"grammar"), (.ruleName c!"_"), (.simple (.literal c!"}")), (.ruleName c!"_eol"), (.ruleName c!"_")])

/-- src/peg/rules.rs:7 `mline_comment` -/
def e_mline_comment : Expr :=
  (.and [(.simple (.literal c!"/*")), (.rep (.and [(.not (.simple (.literal c!"*/"))), (.simple .dot)]) 0 none), (.simple (.literal c!"*/"))])

/-- src/peg/rules.rs:8 `_1` -/
def e__1 : Expr :=
  (.or [(.simple (.literal c!" ")), (.ruleName c!"eol")])

/-- src/peg/rules.rs:9 `comment` -/
def e_comment : Expr :=
  (.or [(.ruleName c!"line_comment"), (.ruleName c!"mline_comment")])

/-- src/peg/rules.rs:10 `or` -/
def e_or : Expr :=
  (.and [(.ruleName c!"and"), (.rep (.and [(.ruleName c!"_"), (.simple (.literal c!"/")), (.ruleName c!"_"), (.ruleName c!"or")]) 0 (some 1))])

/-- src/peg/rules.rs:11 `literal` -/
def e_literal : Expr :=
  (.or [(.ruleName c!"lit_noesc"), (.ruleName c!"lit_esc")])

/-- src/peg/rules.rs:12 `mod_name` -/
def e_mod_name : Expr :=
  (.ruleName c!"symbol")

/-- src/peg/rules.rs:13 `esc_char` -/
def e_esc_char : Expr :=
  (.or [(.simple (.literal c!"\\r")), (.simple (.literal c!"\\n")), (.simple (.literal c!"\\t")), (.simple (.literal c!"\\\\")), (.simple (.literal c!"\\\""))])

/-- src/peg/rules.rs:14 `atom` -/
def e_atom : Expr :=
  (.or [(.ruleName c!"literal"), (.ruleName c!"match"), (.ruleName c!"rule_name"), (.ruleName c!"dot")])

/-- src/peg/rules.rs:15 `hex_char` -/
def e_hex_char : Expr :=
  (.and [(.simple (.literal c!"\\0x")), (.simple (.mtch c!"" [('0', '9'), ('A', 'F')])), (.simple (.mtch c!"" [('0', '9'), ('A', 'F')]))])

/-- src/peg/rules.rs:16 `parenth` -/
def e_parenth : Expr :=
  (.and [(.simple (.literal c!"(")), (.ruleName c!"_"), (.ruleName c!"expr"), (.ruleName c!"_"), (.or [(.simple (.literal c!")")), (.simple (.error c!"unbalanced parethesis: missing ')'"))])])

/-- src/peg/rules.rs:17 `and` -/
def e_and : Expr :=
  (.or [(.ruleName c!"error"), (.and [(.ruleName c!"rep_or_neg"), (.rep (.and [(.ruleName c!"_1"), (.ruleName c!"_"), (.not (.and [(.ruleName c!"rule_name"), (.ruleName c!"_"), (.or [(.simple (.literal c!"=")), (.simple (.literal c!"{"))])])), (.ruleName c!"and")]) 0 none)])])

/-- src/peg/rules.rs:18 `rule` -/
def e_rule : Expr :=
  (.and [(.ruleName c!"_"), (.ruleName c!"rule_name"), (.ruleName c!"_"), (.simple (.literal c!"=")), (.ruleName c!"_"), (.ruleName c!"expr"), (.ruleName c!"_eol"), (.ruleName c!"_")])

/-- src/peg/rules.rs:19 `grammar` -/
def e_grammar : Expr :=
  (.rep (.or [(.ruleName c!"rule"), (.ruleName c!"module")]) 1 none)

/-- src/peg/rules.rs:20 `match` -/
def e_match : Expr :=
  (.and [(.simple (.literal c!"[")), (.or [(.and [(.ruleName c!"mchars"), (.rep (.ruleName c!"mbetween") 0 none)]), (.rep (.ruleName c!"mbetween") 1 none)]), (.simple (.literal c!"]"))])

/-- src/peg/rules.rs:21 `rep_or_neg` -/
def e_rep_or_neg : Expr :=
  (.or [(.and [(.ruleName c!"atom_or_par"), (.rep (.or [(.simple (.literal c!"*")), (.simple (.literal c!"+")), (.simple (.literal c!"?"))]) 0 (some 1))]), (.and [(.simple (.literal c!"!")), (.ruleName c!"atom_or_par")])])

/-- src/peg/rules.rs:22 `_eol` -/
def e__eol : Expr :=
  (.and [(.rep (.or [(.simple (.literal c!" ")), (.ruleName c!"comment")]) 0 none), (.ruleName c!"eol")])

/-- src/peg/rules.rs:23 `line_comment` -/
def e_line_comment : Expr :=
  (.and [(.simple (.literal c!"//")), (.rep (.and [(.not (.ruleName c!"eol")), (.simple .dot)]) 0 none), (.ruleName c!"eol")])

/-- src/peg/rules.rs:24 `lit_noesc` -/
def e_lit_noesc : Expr :=
  (.and [(.ruleName c!"_'"), (.rep (.and [(.not (.ruleName c!"_'")), (.simple .dot)]) 0 none), (.ruleName c!"_'")])

/-- src/peg/rules.rs:25 `rule_name` -/
def e_rule_name : Expr :=
  (.and [(.rep (.simple (.literal c!".")) 0 (some 1)), (.ruleName c!"symbol"), (.rep (.and [(.simple (.literal c!".")), (.ruleName c!"symbol")]) 0 none)])

/-- src/peg/rules.rs:26 `_"` -/
def e__dq : Expr :=
  (.simple (.literal c!"\""))

/-- src/peg/rules.rs:27 `mchars` -/
def e_mchars : Expr :=
  (.rep (.and [(.not (.simple (.literal c!"]"))), (.not (.and [(.simple .dot), (.simple (.literal c!"-"))])), (.simple .dot)]) 1 none)

/-- src/peg/rules.rs:28 `expr` -/
def e_expr : Expr :=
  (.ruleName c!"or")

/-- src/peg/rules.rs:29 `symbol` -/
def e_symbol : Expr :=
  (.and [(.simple (.mtch c!"_" [('a', 'z'), ('A', 'Z'), ('0', '9')])), (.rep (.simple (.mtch c!"_'\"" [('a', 'z'), ('A', 'Z'), ('0', '9')])) 0 none)])

/-- src/peg/rules.rs:30 `error` -/
def e_error : Expr :=
  (.and [(.simple (.literal c!"error")), (.ruleName c!"_"), (.simple (.literal c!"(")), (.ruleName c!"_"), (.ruleName c!"literal"), (.ruleName c!"_"), (.simple (.literal c!")"))])

/-- src/peg/rules.rs:31 `_'` -/
def e__sq : Expr :=
  (.simple (.literal c!"'"))

/-- src/peg/rules.rs:32 `eol` -/
def e_eol : Expr :=
  (.or [(.simple (.literal c!"\r\n")), (.simple (.literal c!"\n")), (.simple (.literal c!"\r"))])

/-- src/peg/rules.rs:33 `lit_esc` -/
def e_lit_esc : Expr :=
  (.and [(.ruleName c!"_\""), (.rep (.or [(.ruleName c!"esc_char"), (.ruleName c!"hex_char"), (.and [(.not (.ruleName c!"_\"")), (.simple .dot)])]) 0 none), (.ruleName c!"_\"")])

/-- src/peg/rules.rs:34 `mbetween` -/
def e_mbetween : Expr :=
  (.and [(.simple .dot), (.simple (.literal c!"-")), (.simple .dot)])

/-- src/peg/rules.rs:35 `_` -/
def e__ : Expr :=
  (.rep (.or [(.simple (.literal c!" ")), (.ruleName c!"eol"), (.ruleName c!"comment")]) 0 none)

/-- src/peg/rules.rs:36 `main` -/
def e_main : Expr :=
  (.ruleName c!"grammar")

/-- src/peg/rules.rs:37 `atom_or_par` -/
def e_atom_or_par : Expr :=
  (.or [(.ruleName c!"atom"), (.ruleName c!"parenth")])

/-- src/peg/rules.rs:3-40 `parse_peg()`, the argument list of `rules!` in source order. -/
def table : List (Str × Expr) := [
  (c!"dot", e_dot),
  (c!"module", e_module),
  (c!"mline_comment", e_mline_comment),
  (c!"_1", e__1),
  (c!"comment", e_comment),
  (c!"or", e_or),
  (c!"literal", e_literal),
  (c!"mod_name", e_mod_name),
  (c!"esc_char", e_esc_char),
  (c!"atom", e_atom),
  (c!"hex_char", e_hex_char),
  (c!"parenth", e_parenth),
  (c!"and", e_and),
  (c!"rule", e_rule),
  (c!"grammar", e_grammar),
  (c!"match", e_match),
  (c!"rep_or_neg", e_rep_or_neg),
  (c!"_eol", e__eol),
  (c!"line_comment", e_line_comment),
  (c!"lit_noesc", e_lit_noesc),
  (c!"rule_name", e_rule_name),
  (c!"_\"", e__dq),
  (c!"mchars", e_mchars),
  (c!"expr", e_expr),
  (c!"symbol", e_symbol),
  (c!"error", e_error),
  (c!"_'", e__sq),
  (c!"eol", e_eol),
  (c!"lit_esc", e_lit_esc),
  (c!"mbetween", e_mbetween),
  (c!"_", e__),
  (c!"main", e_main),
  (c!"atom_or_par", e_atom_or_par)]

/-- src/peg/rules.rs:3-40 `parse_peg()` -/
def parsePeg : SetOfRules := SetOfRules.ofList table

end DP.PegRules
