/-
Texts of README.md, and the same texts as documents of the concrete syntax (written by tools/gendoc.py;
Props/Readme.lean proves that the documents have these texts).
-/
import Verif.Spec.SelfDoc

namespace DP.Spec.Readme
open Syntax

/-- README.md:101-112, the basic example -/
def basic : Str :=
  c!"\n" ++
  c!"\n" ++
  c!"    main            =   letter letter_or_num+\n" ++
  c!"\n" ++
  c!"    letter          =   [a-zA-Z]\n" ++
  c!"\n" ++
  c!"    letter_or_num   =   letter\n" ++
  c!"                    /   number\n" ++
  c!"\n" ++
  c!"    number          =   [0-9]\n" ++
  c!"\n" ++
  c!"            "

def basicDoc : Doc :=
  ⟨([.eol .lf, .eol .lf] ++ sps 4), defsOf (.rule c!"main" (sps 12) (sps 3) (.one (.item (.plain (.ref c!"letter")) (.item [.sp] (.plus (.ref c!"letter_or_num")) .nil))) ⟨[], .lf, ([.eol .lf] ++ sps 4)⟩) [
    .rule c!"letter" (sps 10) (sps 3) (.one (.item (.plain (.cls c!"" [('a', 'z'), ('A', 'Z')])) .nil)) ⟨[], .lf, ([.eol .lf] ++ sps 4)⟩,
    .rule c!"letter_or_num" (sps 3) (sps 3) (.cons (.item (.plain (.ref c!"letter")) .nil) ([.eol .lf] ++ sps 20) (sps 3) (.one (.item (.plain (.ref c!"number")) .nil))) ⟨[], .lf, ([.eol .lf] ++ sps 4)⟩,
    .rule c!"number" (sps 10) (sps 3) (.one (.item (.plain (.cls c!"" [('0', '9')])) .nil)) ⟨[], .lf, ([.eol .lf] ++ sps 12)⟩    ]⟩

/-- README.md:266-276, the second example -/
def second : Str :=
  c!"\n" ++
  c!"\n" ++
  c!"    main    =   'a' ( 'bc'  'c'\n" ++
  c!"                    /  'bcdd'\n" ++
  c!"                    / b_and_c  d_or_z\n" ++
  c!"                    )\n" ++
  c!"\n" ++
  c!"    b_and_c =   'b'   'c'\n" ++
  c!"    d_or_z  =   'd' / 'z'\n" ++
  c!"\n" ++
  c!"        "

def secondDoc : Doc :=
  ⟨([.eol .lf, .eol .lf] ++ sps 4), defsOf (.rule c!"main" (sps 4) (sps 3) (.one (.item (.plain (.lit (.single c!"a"))) (.item [.sp] (.plain (.par [.sp] (.cons (.item (.plain (.lit (.single c!"bc"))) (.item [.sp, .sp] (.plain (.lit (.single c!"c"))) .nil)) ([.eol .lf] ++ sps 20) [.sp, .sp] (.cons (.item (.plain (.lit (.single c!"bcdd"))) .nil) ([.eol .lf] ++ sps 20) [.sp] (.one (.item (.plain (.ref c!"b_and_c")) (.item [.sp, .sp] (.plain (.ref c!"d_or_z")) .nil))))) ([.eol .lf] ++ sps 20))) .nil))) ⟨[], .lf, ([.eol .lf] ++ sps 4)⟩) [
    .rule c!"b_and_c" [.sp] (sps 3) (.one (.item (.plain (.lit (.single c!"b"))) (.item (sps 3) (.plain (.lit (.single c!"c"))) .nil))) ⟨[], .lf, (sps 4)⟩,
    .rule c!"d_or_z" [.sp, .sp] (sps 3) (.cons (.item (.plain (.lit (.single c!"d"))) .nil) [.sp] [.sp] (.one (.item (.plain (.lit (.single c!"z"))) .nil))) ⟨[], .lf, ([.eol .lf] ++ sps 8)⟩    ]⟩

/-- README.md:419-441, the calculator -/
def calculator : Str :=
  c!"\n" ++
  c!"\n" ++
  c!"    main            =   _  expr  _\n" ++
  c!"\n" ++
  c!"    expr            =   add_t       (_  add_op  _   add_t)*\n" ++
  c!"                    /   portion_expr\n" ++
  c!"\n" ++
  c!"    add_t           =   fact_t      (_  fact_op _   fact_t)*\n" ++
  c!"\n" ++
  c!"    fact_t          =   portion_expr\n" ++
  c!"\n" ++
  c!"    portion_expr    =   '('  expr ')'\n" ++
  c!"                    /   item\n" ++
  c!"\n" ++
  c!"    item            =   num\n" ++
  c!"\n" ++
  c!"    num             =   [0-9]+ ('.' [0-9]+)?\n" ++
  c!"    add_op          =   '+'  /  '-'\n" ++
  c!"    fact_op         =   '*'  /  '/'\n" ++
  c!"\n" ++
  c!"    _               =   ' '*\n" ++
  c!"\n" ++
  c!"        "

def calculatorDoc : Doc :=
  ⟨([.eol .lf, .eol .lf] ++ sps 4), defsOf (.rule c!"main" (sps 12) (sps 3) (.one (.item (.plain (.ref c!"_")) (.item [.sp, .sp] (.plain (.ref c!"expr")) (.item [.sp, .sp] (.plain (.ref c!"_")) .nil)))) ⟨[], .lf, ([.eol .lf] ++ sps 4)⟩) [
    .rule c!"expr" (sps 12) (sps 3) (.cons (.item (.plain (.ref c!"add_t")) (.item (sps 7) (.star (.par [] (.one (.item (.plain (.ref c!"_")) (.item [.sp, .sp] (.plain (.ref c!"add_op")) (.item [.sp, .sp] (.plain (.ref c!"_")) (.item (sps 3) (.plain (.ref c!"add_t")) .nil))))) [])) .nil)) ([.eol .lf] ++ sps 20) (sps 3) (.one (.item (.plain (.ref c!"portion_expr")) .nil))) ⟨[], .lf, ([.eol .lf] ++ sps 4)⟩,
    .rule c!"add_t" (sps 11) (sps 3) (.one (.item (.plain (.ref c!"fact_t")) (.item (sps 6) (.star (.par [] (.one (.item (.plain (.ref c!"_")) (.item [.sp, .sp] (.plain (.ref c!"fact_op")) (.item [.sp] (.plain (.ref c!"_")) (.item (sps 3) (.plain (.ref c!"fact_t")) .nil))))) [])) .nil))) ⟨[], .lf, ([.eol .lf] ++ sps 4)⟩,
    .rule c!"fact_t" (sps 10) (sps 3) (.one (.item (.plain (.ref c!"portion_expr")) .nil)) ⟨[], .lf, ([.eol .lf] ++ sps 4)⟩,
    .rule c!"portion_expr" (sps 4) (sps 3) (.cons (.item (.plain (.lit (.single c!"("))) (.item [.sp, .sp] (.plain (.ref c!"expr")) (.item [.sp] (.plain (.lit (.single c!")"))) .nil))) ([.eol .lf] ++ sps 20) (sps 3) (.one (.item (.plain (.ref c!"item")) .nil))) ⟨[], .lf, ([.eol .lf] ++ sps 4)⟩,
    .rule c!"item" (sps 12) (sps 3) (.one (.item (.plain (.ref c!"num")) .nil)) ⟨[], .lf, ([.eol .lf] ++ sps 4)⟩,
    .rule c!"num" (sps 13) (sps 3) (.one (.item (.plus (.cls c!"" [('0', '9')])) (.item [.sp] (.opt (.par [] (.one (.item (.plain (.lit (.single c!"."))) (.item [.sp] (.plus (.cls c!"" [('0', '9')])) .nil))) [])) .nil))) ⟨[], .lf, (sps 4)⟩,
    .rule c!"add_op" (sps 10) (sps 3) (.cons (.item (.plain (.lit (.single c!"+"))) .nil) [.sp, .sp] [.sp, .sp] (.one (.item (.plain (.lit (.single c!"-"))) .nil))) ⟨[], .lf, (sps 4)⟩,
    .rule c!"fact_op" (sps 9) (sps 3) (.cons (.item (.plain (.lit (.single c!"*"))) .nil) [.sp, .sp] [.sp, .sp] (.one (.item (.plain (.lit (.single c!"/"))) .nil))) ⟨[], .lf, ([.eol .lf] ++ sps 4)⟩,
    .rule c!"_" (sps 15) (sps 3) (.one (.item (.star (.lit (.single c!" "))) .nil)) ⟨[], .lf, ([.eol .lf] ++ sps 8)⟩    ]⟩

/-- README.md:576-579, the note about `or` -/
def hello : Str :=
  c!"    main    =   'hello'\n" ++
  c!"            /   'hello world'\n" ++
  c!"            /   'hola'\n"

def helloDoc : Doc :=
  ⟨(sps 4), defsOf (.rule c!"main" (sps 4) (sps 3) (.cons (.item (.plain (.lit (.single c!"hello"))) .nil) ([.eol .lf] ++ sps 12) (sps 3) (.cons (.item (.plain (.lit (.single c!"hello world"))) .nil) ([.eol .lf] ++ sps 12) (sps 3) (.one (.item (.plain (.lit (.single c!"hola"))) .nil)))) ⟨[], .lf, []⟩) [
    ]⟩

/-- README.md:647-648, negation -/
def untilA : Str :=
  c!"main = (!'a' .)* 'a'\n"

def untilADoc : Doc :=
  ⟨[], defsOf (.rule c!"main" [.sp] [.sp] (.one (.item (.star (.par [] (.one (.item (.not (.lit (.single c!"a"))) (.item [.sp] (.plain (.dot)) .nil))) [])) (.item [.sp] (.plain (.lit (.single c!"a"))) .nil))) ⟨[], .lf, []⟩) [
    ]⟩

/-- README.md:812-813, priority -/
def plain : Str :=
  c!"main    =  'A' 'B'  /  'B' 'C'\n"

def plainDoc : Doc :=
  ⟨[], defsOf (.rule c!"main" (sps 4) [.sp, .sp] (.cons (.item (.plain (.lit (.single c!"A"))) (.item [.sp] (.plain (.lit (.single c!"B"))) .nil)) [.sp, .sp] [.sp, .sp] (.one (.item (.plain (.lit (.single c!"B"))) (.item [.sp] (.plain (.lit (.single c!"C"))) .nil)))) ⟨[], .lf, []⟩) [
    ]⟩

/-- README.md:818-819, priority -/
def grouped : Str :=
  c!"main    =  ('A' 'B')  /  ('B' 'C')\n"

def groupedDoc : Doc :=
  ⟨[], defsOf (.rule c!"main" (sps 4) [.sp, .sp] (.cons (.item (.plain (.par [] (.one (.item (.plain (.lit (.single c!"A"))) (.item [.sp] (.plain (.lit (.single c!"B"))) .nil))) [])) .nil) [.sp, .sp] [.sp, .sp] (.one (.item (.plain (.par [] (.one (.item (.plain (.lit (.single c!"B"))) (.item [.sp] (.plain (.lit (.single c!"C"))) .nil))) [])) .nil))) ⟨[], .lf, []⟩) [
    ]⟩

/-- README.md:824-825, priority -/
def regrouped : Str :=
  c!"main    =  (('A' 'B')  /  'B') 'C'\n"

def regroupedDoc : Doc :=
  ⟨[], defsOf (.rule c!"main" (sps 4) [.sp, .sp] (.one (.item (.plain (.par [] (.cons (.item (.plain (.par [] (.one (.item (.plain (.lit (.single c!"A"))) (.item [.sp] (.plain (.lit (.single c!"B"))) .nil))) [])) .nil) [.sp, .sp] [.sp, .sp] (.one (.item (.plain (.lit (.single c!"B"))) .nil))) [])) (.item [.sp] (.plain (.lit (.single c!"C"))) .nil))) ⟨[], .lf, []⟩) [
    ]⟩

/-- README.md:764-769, a message of one's own -/
def unbalanced : Str :=
  c!"\n" ++
  c!"\n" ++
  c!"    main    =   '('  main   ( ')'  /  error(\"unbalanced parenthesis\") )\n" ++
  c!"            /   'hello'\n" ++
  c!"\n" ++
  c!"        "

def unbalancedDoc : Doc :=
  ⟨([.eol .lf, .eol .lf] ++ sps 4), defsOf (.rule c!"main" (sps 4) (sps 3) (.cons (.item (.plain (.lit (.single c!"("))) (.item [.sp, .sp] (.plain (.ref c!"main")) (.item (sps 3) (.plain (.par [.sp] (.cons (.item (.plain (.lit (.single c!")"))) .nil) [.sp, .sp] [.sp, .sp] (.one (.err [] [] (.double [.plain 'u', .plain 'n', .plain 'b', .plain 'a', .plain 'l', .plain 'a', .plain 'n', .plain 'c', .plain 'e', .plain 'd', .plain ' ', .plain 'p', .plain 'a', .plain 'r', .plain 'e', .plain 'n', .plain 't', .plain 'h', .plain 'e', .plain 's', .plain 'i', .plain 's']) []))) [.sp])) .nil))) ([.eol .lf] ++ sps 12) (sps 3) (.one (.item (.plain (.lit (.single c!"hello"))) .nil))) ⟨[], .lf, ([.eol .lf] ++ sps 8)⟩) [
    ]⟩

end DP.Spec.Readme
