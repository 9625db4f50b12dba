/-
Tests of the model: the unit tests of src/**/test.rs and the examples in the documentation of the crate,
evaluated on the model with the interpreter (`#guard`). They check that the model behaves as the repository
expects. They are not proofs of any property, and nothing else depends on this file.
-/
import Verif.Model.Peg
import Verif.Model.Gcode

namespace DP.Tests

def _root_.DP.Out.isOk {ε α : Type} : Out ε α → Bool
  | .ok _ => true
  | _ => false

def _root_.DP.Out.isErr {ε α : Type} : Out ε α → Bool
  | .err _ => true
  | _ => false

/-- fuel that is plenty for the texts below -/
def fuel : Nat := 600

def lit (s : String) : Expr := .simple (.literal s.toList)
def rules (l : List (String × Expr)) : SetOfRules := .ofList (l.map fun ne => (ne.1.toList, ne.2))
def run (s : String) (l : List (String × Expr)) : Out Error Node := parseWithDebugF fuel s.toList (rules l) false
/-- `rules_from_peg(peg).unwrap()`, then `parse(s, &rules)` -/
def pegParse (peg s : String) : Out Error Node :=
  match rulesFromPegF fuel peg.toList with
  | .ok R => parseWithDebugF fuel s.toList R false
  | _ => .panic
/-- the position after `expression::parse` -/
def endPos (s : String) (e : Expr) : Option (Nat × Nat × Nat) :=
  match parseExpr .empty fuel (.init s.toList) e with
  | .ok (st, _) => some (st.pos.col, st.pos.n, st.pos.row)
  | _ => none

/-! ### src/parser/test.rs, src/parser/expression/test.rs -/

#guard endPos "aaaaaaaaaaaaaaaa" (lit "aaa") = some (3, 3, 0)
#guard endPos "aabbcc" (.and [lit "aa", .and [lit "bb", lit "cc"]]) = some (6, 6, 0)
#guard endPos "aabb" (.or [lit "bb", .and [lit "aa", lit "bb"]]) = some (4, 4, 0)
#guard endPos "aa" (.not (lit "bb")) = some (0, 0, 0)
#guard endPos "aaaaaa" (.rep (lit "aa") 3 none) = some (6, 6, 0)
#guard endPos "aaaaaaaaaaaaaaaa" (lit "bb") = none
#guard endPos "aaaaaaaaaaaaaaaa" (.and [lit "aa", lit "aa"]) = some (4, 4, 0)
#guard endPos "aaaaaaaaaaaaaaaa" (.and [lit "aa", lit "bb"]) = none
#guard endPos "aa" (.not (lit "aa")) = none
#guard endPos "aaaaaaaaaaaaaaaa" (.or [lit "aa", lit "aa"]) = some (2, 2, 0)
#guard endPos "aaaaaaaaaaaaaaaa" (.or [lit "aa", lit "bb"]) = some (2, 2, 0)
#guard endPos "aaaaaaaaaaaaaaaa" (.or [lit "bb", lit "aa"]) = some (2, 2, 0)
#guard endPos "aaaaaaaaaaaaaaaa" (.and [lit "cc", lit "bb"]) = none
#guard endPos "aaaaaa" (.rep (lit "aa") 0 none) = some (6, 6, 0)
#guard endPos "aaaaaa" (.rep (lit "aa") 0 (some 3)) = some (6, 6, 0)
#guard endPos "aaaaaa" (.rep (lit "aa") 0 (some 1)) = some (2, 2, 0)
#guard endPos "aaaaaa" (.rep (lit "bb") 0 none) = some (0, 0, 0)
#guard endPos "aaaaaa" (.rep (lit "aa") 4 none) = none

/-! ### src/parser/atom/test.rs -/

#guard endPos "abcdefghij" (lit "abc") = some (3, 3, 0)
#guard endPos "abcdefghij" (lit "bbb") = none
#guard endPos "abcdefghij" (lit "abd") = none
#guard endPos "abcd" (lit "abcdefghij") = none
#guard endPos "aa\naaaaaaaaaaaaaa" (lit "aa\na") = some (1, 4, 1)
#guard endPos "ab" (.and [.simple .dot, .simple .dot]) = some (2, 2, 0)
#guard endPos "ab" (.and [.simple .dot, .simple .dot, .simple .dot]) = none
def fgCls : Expr := .simple (.mtch [] [('f', 'g'), ('h', 'j')])
def listCls : Expr := .simple (.mtch "54321ed_cba".toList [])
#guard endPos "a f0ghi" listCls = some (1, 1, 0)
#guard endPos "a f0ghi" (.and [listCls, .simple .dot, fgCls]) = some (3, 3, 0)
#guard endPos "a f0ghi" (.and [listCls, .simple .dot, fgCls, fgCls]) = none
#guard endPos "a9" (.and [.simple (.mtch "ed_cba".toList []), .simple (.mtch [] [('a', 'z'), ('0', '8')])]) = none
#guard (endPos "a" (.and [.simple (.mtch [] [('a', 'z'), ('0', '9')]), .simple .eof])).isSome
#guard endPos "ab" (.and [.simple (.mtch [] [('a', 'z'), ('0', '9')]), .simple .eof]) = none

/-! ### documentation of src/lib.rs -/

#guard (run "aabc" [("main", .and [lit "aa", .ruleName "rule2".toList]), ("rule2", .and [lit "b", lit "c"])]).isOk
#guard (run "aa" [("main", lit "aa")]).isOk
#guard (run "aa" [("main", .simple (.error "aa".toList))]).isErr
#guard (run "aa" [("main", .and [.simple .dot, .simple .dot])]).isOk
#guard (run "aabcdj" [("main", .rep (.simple (.mtch "cd".toList [('a', 'b'), ('j', 'p')])) 0 none)]).isOk
#guard (run "a" [("main", .or [lit "z", lit "a"])]).isOk
#guard (run "a" [("main", .and [.not (lit "b"), .simple .dot])]).isOk
#guard (run "aaaaaaaa" [("main", .rep (lit "a") 0 none)]).isOk
#guard (run "aaa" [("main", .rep (lit "a") 0 (some 3))]).isOk
#guard (run "aaa" [("main", .ruleName "3a".toList), ("3a", lit "aaa")]).isOk
#guard (pegParse r#"

    main            =   letter letter_or_num+

    letter          =   [a-zA-Z]

    letter_or_num   =   letter
                    /   number

    number          =   [0-9]

"# "a2AA456bzJ88").isOk

def calculator := r#"

     main            =   _  expr  _

     expr            =   add_t       (_  add_op  _   add_t)*
                     /   portion_expr

     add_t           =   fact_t      (_  fact_op _   fact_t)*

     fact_t          =   portion_expr

     portion_expr    =   '(' expr ')'
                     /   item

     item            =   num

     num             =   [0-9]+ ('.' [0-9]+)?
     add_op          =   '+'  /  '-'
     fact_op         =   '*'  /  '/'

     _               =   ' '*

"#
#guard (pegParse calculator " 1 +  2*  3 +(5/5 - (8-7))").isOk

def unbalanced := r#"

     main    =   '('  main   ( ')'  /  error("unbalanced parenthesis") )
             /   'hello'

"#
#guard (pegParse unbalanced "hello").isOk && (pegParse unbalanced "(hello)").isOk && (pegParse unbalanced "(((hello)))").isOk
#guard match pegParse unbalanced "((hello)" with
  | .err e => e.descr.render (fun _ => []) == "unbalanced parenthesis".toList
  | _ => false

/-! ### documentation of src/peg/mod.rs, src/peg/gcode.rs, src/parser/expression/mod.rs -/

#guard (pegParse r#"
main    =   'hello'   ' '   'world'  dot
dot     =   "\0x2E"
"# "hello world.").isOk
#guard (pegParse r#"
         //  classic hello world
         main    =   'hello'   ' '   'world'

         /*  with a multiline comment
         */
"# "hello world").isOk

-- the code shown in the documentation of gcode.rs, up to the order of the rules and raw strings for names
#guard (match rulesFromPegF fuel r#"

             main            =   as / a  bs

             as              =   a+

             a               =   'a'

             bs              =   'b'+

"#.toList with
  | .ok R => R.entries.map fun ne => String.ofList (Gcode.rule2code ne.1 ne.2)
  | _ => []) = [
  "r#\"bs\"# => rep!(lit!(\"b\"), 1)",
  "r#\"a\"# => lit!(\"a\")",
  "r#\"as\"# => rep!(ref_rule!(r#\"a\"#), 1)",
  "r#\"main\"# => or!(ref_rule!(r#\"as\"#), and!(ref_rule!(r#\"a\"#), ref_rule!(r#\"bs\"#)))"]

/-! ### documentation of src/ast/mod.rs, src/ast/flat.rs -/

def rule (n : String) (ts : List Node) : Node := .rule n.toList ts
def val (s : String) : Node := .val s.toList
def same (a b : Node) : Bool := (repr a).pretty == (repr b).pretty

#guard same (Node.prune ["_1".toList, "_2".toList] (rule "root" [rule "a" [rule "_1" [], rule "_2" []]]))
  (rule "root" [rule "a" []])
#guard same (Node.passThrough ["root".toList, "a".toList, "_2".toList]
    (rule "root" [rule "a" [rule "_1" [rule "_2" []]]])) (rule "root" [rule "a" [rule "_2" []]])
#guard same (Node.compact (rule "root" [rule "node" [val "hello", val " ", val "world"]]))
  (rule "root" [rule "node" [val "hello world"]])
#guard (getNodesUniqueVal [val "hello"]).toOption = some "hello".toList
#guard (getNodesUniqueVal [val "hello", val "world"]).toOption = none
#guard (checkEmptyNodes []).isOk
#guard Node.flatten (rule "first" [rule "node1" [val "hello", rule "node1.1" [val " "]], rule "node2" [val "world"]]) =
  [.beginRule "first".toList, .beginRule "node1".toList, .val "hello".toList, .beginRule "node1.1".toList,
   .val " ".toList, .endRule "node1.1".toList, .endRule "node1".toList, .beginRule "node2".toList,
   .val "world".toList, .endRule "node2".toList, .endRule "first".toList]

/-! ### src/peg/test.rs -/

-- src/peg/test.rs `validate_peg1`
def validate_peg1 := r#"
    
    main    = "aaa" "bb" c*  / ((d f)+ / es)
    c       = c'
    c'      = c''
    c''     = "c"
    d       = "d"
    f       = "f"
    es       = "e"+

    "#
#guard (parseWithDebugF fuel validate_peg1.toList PegRules.parsePeg false).isOk

-- src/peg/test.rs `validate_peg2`
def validate_peg2 := r#"
    
    main    =   "aaa" 
            /   "bb" c*  
            / ((d f)+ / es)

    c       = c'
    c'      = c''
    c''     = "c"
    d       = "d"
    f       = "f"
    es       = "e"+

    "#
#guard (parseWithDebugF fuel validate_peg2.toList PegRules.parsePeg false).isOk

-- src/peg/test.rs `invalid_peg1`
def invalid_peg1 := r#"
    
    main    = "aaa" "bb" c *  / ((d f)+ / es)
    c       = c'
    c'      = c''
    c''     = "c"
    d       = "d"
    f       = "f"
    es       = "e"+

    "#
#guard (parseWithDebugF fuel invalid_peg1.toList PegRules.parsePeg false).isErr

-- src/peg/test.rs `invalid_peg2`
def invalid_peg2 := r#"
    
    main    =   "aaa" 
            /   "bb" c*  
            / ((d f)+ / es
            
    c       = c'
    c'      = c''
    c''     = "c"
    d       = "d"
    f       = "f"
    es       = "e"+

    "#
#guard (parseWithDebugF fuel invalid_peg2.toList PegRules.parsePeg false).isErr

-- src/peg/test.rs `validate_peg3`
def validate_peg3 := r#"
    
    main    = "aaa "bb" c*  / ((d f)+ / es)
    c       = c'
    c'      = c''
    c''     = "c"
    d       = "d"
    f       = "f"
    es       = "e"+

    "#
#guard (parseWithDebugF fuel validate_peg3.toList PegRules.parsePeg false).isErr

-- src/peg/test.rs `validate_peg4`
def validate_peg4 := r#"
    
    ma in    = "aaa" "bb" c*  / ((d f)+ / es)
    c       = c'
    c'      = c''
    c''     = "c"
    d       = "d"
    f       = "f"
    es       = "e"+

    "#
#guard (parseWithDebugF fuel validate_peg4.toList PegRules.parsePeg false).isErr

-- src/peg/test.rs `validate_peg5`
def validate_peg5 := r#"
    
    main    = "aaa" "bb" c*  / ((d f)+* / es)
    c       = c'
    c'      = c''
    c''     = "c"
    d       = "d"
    f       = "f"
    es       = "e"+

    "#
#guard (parseWithDebugF fuel validate_peg5.toList PegRules.parsePeg false).isErr

-- src/peg/test.rs `parse_literal`
def parse_literal := r#"

    main    = "hello"

    "#
#guard (pegParse parse_literal "hello").isOk

-- src/peg/test.rs `parse_and_literal`
def parse_and_literal := r#"

    main    = "hello"   " "   "world"

    "#
#guard (pegParse parse_and_literal "hello world").isOk

-- src/peg/test.rs `parse_or_literal`
def parse_or_literal := r#"

    main    =   "hello" " "  "world"   
            /   "hola"  " "  "mundo"
            /   "hola"

    "#
#guard (pegParse parse_or_literal "hello world").isOk
#guard (pegParse parse_or_literal "hola").isOk
#guard (pegParse parse_or_literal "hola mundo").isOk
#guard (pegParse parse_or_literal "bye").isErr

-- src/peg/test.rs `parse_ref_rule`
def parse_ref_rule := r#"

    main    = "hello"  " "   world

    world   = "world"

    "#
#guard (pegParse parse_ref_rule "hello world").isOk
#guard (pegParse parse_ref_rule "bye").isErr

-- src/peg/test.rs `parse_parenth`
def parse_parenth := r#"

    main    =   "hello"  " " (world / "mars")

    world   =   "world"

    "#
#guard (pegParse parse_parenth "hello world").isOk
#guard (pegParse parse_parenth "hello mars").isOk
#guard (pegParse parse_parenth "hello pluto").isErr
#guard (pegParse parse_parenth "hello").isErr

-- src/peg/test.rs `parse_klean`
def parse_klean := r#"

    main    =   "a"*

    "#
#guard (pegParse parse_klean "aaaaaa").isOk
#guard (pegParse parse_klean "a").isOk
#guard (pegParse parse_klean "").isOk
#guard (pegParse parse_klean "bbb").isErr
#guard (pegParse parse_klean "b").isErr
#guard (pegParse parse_klean "aab").isErr

-- src/peg/test.rs `parse_one_or_more`
def parse_one_or_more := r#"

    main    =   "a"+

    "#
#guard (pegParse parse_one_or_more "aaaaaa").isOk
#guard (pegParse parse_one_or_more "a").isOk
#guard (pegParse parse_one_or_more "").isErr
#guard (pegParse parse_one_or_more "bbb").isErr
#guard (pegParse parse_one_or_more "b").isErr
#guard (pegParse parse_one_or_more "aab").isErr

-- src/peg/test.rs `parse_one_or_zero`
def parse_one_or_zero := r#"

    main    =   "a"?

    "#
#guard (pegParse parse_one_or_zero "aaaaaa").isErr
#guard (pegParse parse_one_or_zero "a").isOk
#guard (pegParse parse_one_or_zero "").isOk
#guard (pegParse parse_one_or_zero "bbb").isErr
#guard (pegParse parse_one_or_zero "b").isErr
#guard (pegParse parse_one_or_zero "ab").isErr

-- src/peg/test.rs `parse_negation`
def parse_negation := r#"

    main    =   !"bye"  "hello"

    "#
#guard (pegParse parse_negation "hello").isOk
#guard (pegParse parse_negation "bye").isErr
#guard (pegParse parse_negation "hi").isErr
#guard (pegParse parse_negation "bye hello").isErr

-- src/peg/test.rs `parse_dot`
def parse_dot := r#"

    main    =   . . . . .

    "#
#guard (pegParse parse_dot "hello").isOk
#guard (pegParse parse_dot "hola.").isOk
#guard (pegParse parse_dot "hi").isErr
#guard (pegParse parse_dot "bye hello").isErr

-- src/peg/test.rs `parse_dot_with_rep`
def parse_dot_with_rep := r#"

    main    =   (!"h" .)*  "hello"

    "#
#guard (pegParse parse_dot_with_rep "-----hello").isOk
#guard (pegParse parse_dot_with_rep "_hello").isOk
#guard (pegParse parse_dot_with_rep "hello").isOk
#guard (pegParse parse_dot_with_rep "Hola hello").isOk
#guard (pegParse parse_dot_with_rep "hola hello").isErr
#guard (pegParse parse_dot_with_rep "hola_hello").isErr
#guard (pegParse parse_dot_with_rep "Hello").isErr
#guard (pegParse parse_dot_with_rep "bye").isErr
#guard (pegParse parse_dot_with_rep "hola").isErr
#guard (pegParse parse_dot_with_rep "hello hola").isErr

-- src/peg/test.rs `peg_incorrect_match`
def peg_incorrect_match := r#"

    main    =   [A-Zab]

    "#
#guard (rulesFromPegF fuel peg_incorrect_match.toList).isErr

-- src/peg/test.rs `test_match`
def test_match := r#"

    main    =   [123A-X]+

    "#
#guard (pegParse test_match "1111").isOk
#guard (pegParse test_match "222311").isOk
#guard (pegParse test_match "ABCDEF").isOk
#guard (pegParse test_match "ABCDEF4").isErr
#guard (pegParse test_match "").isErr
#guard (pegParse test_match "1234").isErr
#guard (pegParse test_match "Z").isErr
#guard (pegParse test_match "ABZ").isErr

end DP.Tests
