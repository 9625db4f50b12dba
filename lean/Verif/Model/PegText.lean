/-
The constant text of src/peg/peg2code.rs and the source lines of the table in src/peg/rules.rs.
-/
import Verif.Model.Basic

namespace DP.PegText

/-- src/peg/peg2code.rs:26-111 `text_peg2code()`, one list per source line (raw string). -/
def textLines : List Str := [
  c!"\n",
  c!"    /*      A peg grammar to parse peg grammars\n",
  c!"     *\n",
  c!"     */\n",
  c!"\n",
  c!"    main            =   grammar\n",
  c!"\n",
  c!"    grammar         =   (rule  /  module)+\n",
  c!"    \n",
  c!"    module          =   _  mod_name _ '{'  _ grammar  _ '}' _eol _\n",
  c!"    mod_name        =   symbol\n",
  c!"    symbol          =   [_a-zA-Z0-9] [_'\"a-zA-Z0-9]*\n",
  c!"\n",
  c!"    rule            =   _  rule_name  _  '='  _  expr  _eol _\n",
  c!"    rule_name       =   '.'?  symbol  ('.' symbol)*\n",
  c!"\n",
  c!"    expr            =   or\n",
  c!"\n",
  c!"    or              =   and         ( _  '/'  _  or )?\n",
  c!"    error           =   'error' _  '('  _  literal  _  ')'\n",
  c!"\n",
  c!"    and             =   error \n",
  c!"                    /   rep_or_neg  ( _1 _ !(rule_name _ ('=' / '{')) and )*\n",
  c!"    _1              =   (' ' / eol)     //  this is the and separator\n",
  c!"\n",
  c!"    rep_or_neg      =   atom_or_par ('*' / '+' / '?')?\n",
  c!"                    /   '!' atom_or_par\n",
  c!"\n",
  c!"    atom_or_par     =   (atom / parenth)\n",
  c!"\n",
  c!"    parenth         =   '('  _  expr  _  (  ')'\n",
  c!"                                         /  error(\"unbalanced parethesis: missing ')'\") \n",
  c!"                                         )\n",
  c!"\n",
  c!"    atom            =   literal\n",
  c!"                    /   match\n",
  c!"                    /   rule_name\n",
  c!"                    /   dot             //  as rule_name can start with a '.', dot has to be after rule_name\n",
  c!"\n",
  c!"    literal         =  lit_noesc  /  lit_esc\n",
  c!"\n",
  c!"    lit_noesc       =   _'   (  !_' .  )*   _'\n",
  c!"    _'              =   \"'\"\n",
  c!"\n",
  c!"    lit_esc         =   _\"\n",
  c!"                            (   esc_char\n",
  c!"                            /   hex_char\n",
  c!"                            /   !_\" .\n",
  c!"                            )*\n",
  c!"                        _\"\n",
  c!"    _\"              =   '\"'\n",
  c!"\n",
  c!"    esc_char        =   '\\r'\n",
  c!"                    /   '\\n'\n",
  c!"                    /   '\\t'\n",
  c!"                    /   '\\\\'\n",
  c!"                    /   '\\\"'\n",
  c!"\n",
  c!"    hex_char        =   '\\0x' [0-9A-F] [0-9A-F]\n",
  c!"\n",
  c!"    eol             =   (\"\\r\\n\"  /  \"\\n\"  /  \"\\r\")\n",
  c!"    _eol            =   (' ' / comment)*  eol\n",
  c!"\n",
  c!"    match           =   '['\n",
  c!"                            (\n",
  c!"                                (mchars  mbetween*)\n",
  c!"                                / mbetween+\n",
  c!"                            )\n",
  c!"                        ']'\n",
  c!"\n",
  c!"    mchars          =   (!']' !(. '-') .)+\n",
  c!"    mbetween        =   (.  '-'  .)\n",
  c!"\n",
  c!"    dot             =   '.'\n",
  c!"\n",
  c!"    _               =   (  ' '\n",
  c!"                        /   eol\n",
  c!"                        /   comment\n",
  c!"                        )*\n",
  c!"\n",
  c!"    comment         =   line_comment\n",
  c!"                    /   mline_comment\n",
  c!"\n",
  c!"    line_comment    =   '//' (!eol .)*  eol\n",
  c!"    mline_comment   =   '/*' (!'*/' .)* '*/'\n",
  c!"    "]

/-- src/peg/peg2code.rs:25-112 `text_peg2code()` -/
def textPeg2code : Str := textLines.flatten

/-- src/peg/rules.rs:5-37: the source text of the entries of the `rules!` call, without the leading
indentation and separator. -/
def tableSource : List Str := [
  c!"r#\"dot\"# => lit!(\".\")",
  c!"r#\"module\"# => and!(ref_rule!(r#\"_\"#), ref_rule!(r#\"mod_name\"#), ref_rule!(r#\"_\"#), lit!(\"{\"), ref_rule!(r#\"_\"#), ref_rule!(r#\"grammar\"#), ref_rule!(r#\"_\"#), lit!(\"}\"), ref_rule!(r#\"_eol\"#), ref_rule!(r#\"_\"#))",
  c!"r#\"mline_comment\"# => and!(lit!(\"/*\"), rep!(and!(not!(lit!(\"*/\")), dot!()), 0), lit!(\"*/\"))",
  c!"r#\"_1\"# => or!(lit!(\" \"), ref_rule!(r#\"eol\"#))",
  c!"r#\"comment\"# => or!(ref_rule!(r#\"line_comment\"#), ref_rule!(r#\"mline_comment\"#))",
  c!"r#\"or\"# => and!(ref_rule!(r#\"and\"#), rep!(and!(ref_rule!(r#\"_\"#), lit!(\"/\"), ref_rule!(r#\"_\"#), ref_rule!(r#\"or\"#)), 0, 1))",
  c!"r#\"literal\"# => or!(ref_rule!(r#\"lit_noesc\"#), ref_rule!(r#\"lit_esc\"#))",
  c!"r#\"mod_name\"# => ref_rule!(r#\"symbol\"#)",
  c!"r#\"esc_char\"# => or!(lit!(\"\\\\r\"), lit!(\"\\\\n\"), lit!(\"\\\\t\"), lit!(\"\\\\\\\\\"), lit!(\"\\\\\\\"\"))",
  c!"r#\"atom\"# => or!(ref_rule!(r#\"literal\"#), ref_rule!(r#\"match\"#), ref_rule!(r#\"rule_name\"#), ref_rule!(r#\"dot\"#))",
  c!"r#\"hex_char\"# => and!(lit!(\"\\\\0x\"), ematch!(chlist r#\"\"#  , from '0', to '9' , from 'A', to 'F' ), ematch!(chlist r#\"\"#  , from '0', to '9' , from 'A', to 'F' ))",
  c!"r#\"parenth\"# => and!(lit!(\"(\"), ref_rule!(r#\"_\"#), ref_rule!(r#\"expr\"#), ref_rule!(r#\"_\"#), or!(lit!(\")\"), error!(\"unbalanced parethesis: missing ')'\")))",
  c!"r#\"and\"# => or!(ref_rule!(r#\"error\"#), and!(ref_rule!(r#\"rep_or_neg\"#), rep!(and!(ref_rule!(r#\"_1\"#), ref_rule!(r#\"_\"#), not!(and!(ref_rule!(r#\"rule_name\"#), ref_rule!(r#\"_\"#), or!(lit!(\"=\"), lit!(\"{\")))), ref_rule!(r#\"and\"#)), 0)))",
  c!"r#\"rule\"# => and!(ref_rule!(r#\"_\"#), ref_rule!(r#\"rule_name\"#), ref_rule!(r#\"_\"#), lit!(\"=\"), ref_rule!(r#\"_\"#), ref_rule!(r#\"expr\"#), ref_rule!(r#\"_eol\"#), ref_rule!(r#\"_\"#))",
  c!"r#\"grammar\"# => rep!(or!(ref_rule!(r#\"rule\"#), ref_rule!(r#\"module\"#)), 1)",
  c!"r#\"match\"# => and!(lit!(\"[\"), or!(and!(ref_rule!(r#\"mchars\"#), rep!(ref_rule!(r#\"mbetween\"#), 0)), rep!(ref_rule!(r#\"mbetween\"#), 1)), lit!(\"]\"))",
  c!"r#\"rep_or_neg\"# => or!(and!(ref_rule!(r#\"atom_or_par\"#), rep!(or!(lit!(\"*\"), lit!(\"+\"), lit!(\"?\")), 0, 1)), and!(lit!(\"!\"), ref_rule!(r#\"atom_or_par\"#)))",
  c!"r#\"_eol\"# => and!(rep!(or!(lit!(\" \"), ref_rule!(r#\"comment\"#)), 0), ref_rule!(r#\"eol\"#))",
  c!"r#\"line_comment\"# => and!(lit!(\"//\"), rep!(and!(not!(ref_rule!(r#\"eol\"#)), dot!()), 0), ref_rule!(r#\"eol\"#))",
  c!"r#\"lit_noesc\"# => and!(ref_rule!(r#\"_'\"#), rep!(and!(not!(ref_rule!(r#\"_'\"#)), dot!()), 0), ref_rule!(r#\"_'\"#))",
  c!"r#\"rule_name\"# => and!(rep!(lit!(\".\"), 0, 1), ref_rule!(r#\"symbol\"#), rep!(and!(lit!(\".\"), ref_rule!(r#\"symbol\"#)), 0))",
  c!"r#\"_\"\"# => lit!(\"\\\"\")",
  c!"r#\"mchars\"# => rep!(and!(not!(lit!(\"]\")), not!(and!(dot!(), lit!(\"-\"))), dot!()), 1)",
  c!"r#\"expr\"# => ref_rule!(r#\"or\"#)",
  c!"r#\"symbol\"# => and!(ematch!(chlist r#\"_\"#  , from 'a', to 'z' , from 'A', to 'Z' , from '0', to '9' ), rep!(ematch!(chlist r#\"_'\"\"#  , from 'a', to 'z' , from 'A', to 'Z' , from '0', to '9' ), 0))",
  c!"r#\"error\"# => and!(lit!(\"error\"), ref_rule!(r#\"_\"#), lit!(\"(\"), ref_rule!(r#\"_\"#), ref_rule!(r#\"literal\"#), ref_rule!(r#\"_\"#), lit!(\")\"))",
  c!"r#\"_'\"# => lit!(\"'\")",
  c!"r#\"eol\"# => or!(lit!(\"\\r\\n\"), lit!(\"\\n\"), lit!(\"\\r\"))",
  c!"r#\"lit_esc\"# => and!(ref_rule!(r#\"_\"\"#), rep!(or!(ref_rule!(r#\"esc_char\"#), ref_rule!(r#\"hex_char\"#), and!(not!(ref_rule!(r#\"_\"\"#)), dot!())), 0), ref_rule!(r#\"_\"\"#))",
  c!"r#\"mbetween\"# => and!(dot!(), lit!(\"-\"), dot!())",
  c!"r#\"_\"# => rep!(or!(lit!(\" \"), ref_rule!(r#\"eol\"#), ref_rule!(r#\"comment\"#)), 0)",
  c!"r#\"main\"# => ref_rule!(r#\"grammar\"#)",
  c!"r#\"atom_or_par\"# => or!(ref_rule!(r#\"atom\"#), ref_rule!(r#\"parenth\"#))"]

end DP.PegText
