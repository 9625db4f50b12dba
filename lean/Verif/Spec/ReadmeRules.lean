/-
The grammars of README.md under "Rules by example" and after it, and those that are accepted as documents of the
concrete syntax (written by tools/gendoc.py; Props/Example.lean proves that the documents have these texts).
-/
import Verif.Spec.SelfDoc

namespace DP.Spec.Readme
open Syntax

/-- README.md:495-495, a literal -/
def helloWorld : Str :=
  c!"main = 'Hello world'\n"

def helloWorldDoc : Doc :=
  ⟨[], defsOf (.rule c!"main" [.sp] [.sp] (.one (.item (.plain (.lit (.single c!"Hello world"))) .nil)) ⟨[], .lf, []⟩) [
]⟩

/-- README.md:509-509, escapes -/
def newline : Str :=
  c!"main   = \"Hello\\nworld\"\n"

def newlineDoc : Doc :=
  ⟨[], defsOf (.rule c!"main" (sps 3) [.sp] (.one (.item (.plain (.lit (.double [.plain 'H', .plain 'e', .plain 'l', .plain 'l', .plain 'o', .esc .nl, .plain 'w', .plain 'o', .plain 'r', .plain 'l', .plain 'd']))) .nil)) ⟨[], .lf, []⟩) [
]⟩

/-- README.md:511-511, escapes -/
def hexChar : Str :=
  c!"main   = \"Hello\\0x13world\"\n"

def hexCharDoc : Doc :=
  ⟨[], defsOf (.rule c!"main" (sps 3) [.sp] (.one (.item (.plain (.lit (.double [.plain 'H', .plain 'e', .plain 'l', .plain 'l', .plain 'o', .hex '1' '3', .plain 'w', .plain 'o', .plain 'r', .plain 'l', .plain 'd']))) .nil)) ⟨[], .lf, []⟩) [
]⟩

/-- README.md:513-513, escapes -/
def newlineApart : Str :=
  c!"main   = 'Hello' \"\\n\"    'world'\n"

def newlineApartDoc : Doc :=
  ⟨[], defsOf (.rule c!"main" (sps 3) [.sp] (.one (.item (.plain (.lit (.single c!"Hello"))) (.item [.sp] (.plain (.lit (.double [.esc .nl]))) (.item (sps 4) (.plain (.lit (.single c!"world"))) .nil)))) ⟨[], .lf, []⟩) [
]⟩

/-- README.md:515-515, escapes -/
def hexApart : Str :=
  c!"main   = 'Hello' \"\\0x13\" 'world'\n"

def hexApartDoc : Doc :=
  ⟨[], defsOf (.rule c!"main" (sps 3) [.sp] (.one (.item (.plain (.lit (.single c!"Hello"))) (.item [.sp] (.plain (.lit (.double [.hex '1' '3']))) (.item [.sp] (.plain (.lit (.single c!"world"))) .nil)))) ⟨[], .lf, []⟩) [
]⟩

/-- README.md:521-521, quotes -/
def apostrophe : Str :=
  c!"main   = \"'\"\n"

def apostropheDoc : Doc :=
  ⟨[], defsOf (.rule c!"main" (sps 3) [.sp] (.one (.item (.plain (.lit (.double [.plain '\'']))) .nil)) ⟨[], .lf, []⟩) [
]⟩

/-- README.md:523-523, quotes -/
def quote : Str :=
  c!"main   = '\"'\n"

def quoteDoc : Doc :=
  ⟨[], defsOf (.rule c!"main" (sps 3) [.sp] (.one (.item (.plain (.lit (.single c!"\""))) .nil)) ⟨[], .lf, []⟩) [
]⟩

/-- README.md:532-532, concatenation -/
def concat : Str :=
  c!"main = 'Hello '  'world'\n"

def concatDoc : Doc :=
  ⟨[], defsOf (.rule c!"main" [.sp] [.sp] (.one (.item (.plain (.lit (.single c!"Hello "))) (.item [.sp, .sp] (.plain (.lit (.single c!"world"))) .nil))) ⟨[], .lf, []⟩) [
]⟩

/-- README.md:540-541, references -/
def refer : Str :=
  c!"main = hi\n" ++
  c!"hi   = 'Hello world'\n"

def referDoc : Doc :=
  ⟨[], defsOf (.rule c!"main" [.sp] [.sp] (.one (.item (.plain (.ref c!"hi")) .nil)) ⟨[], .lf, []⟩) [
    .rule c!"hi" (sps 3) [.sp] (.one (.item (.plain (.lit (.single c!"Hello world"))) .nil)) ⟨[], .lf, []⟩]⟩

/-- README.md:547-547, or -/
def two : Str :=
  c!"main = 'hello' / 'hi'\n"

def twoDoc : Doc :=
  ⟨[], defsOf (.rule c!"main" [.sp] [.sp] (.cons (.item (.plain (.lit (.single c!"hello"))) .nil) [.sp] [.sp] (.one (.item (.plain (.lit (.single c!"hi"))) .nil))) ⟨[], .lf, []⟩) [
]⟩

/-- README.md:553-556, or multiline -/
def three1 : Str :=
  c!"main\n" ++
  c!"    = 'hello'\n" ++
  c!"    / 'hi'\n" ++
  c!"    / 'hola'\n"

def three1Doc : Doc :=
  ⟨[], defsOf (.rule c!"main" ([.eol .lf] ++ sps 4) [.sp] (.cons (.item (.plain (.lit (.single c!"hello"))) .nil) ([.eol .lf] ++ sps 4) [.sp] (.cons (.item (.plain (.lit (.single c!"hi"))) .nil) ([.eol .lf] ++ sps 4) [.sp] (.one (.item (.plain (.lit (.single c!"hola"))) .nil)))) ⟨[], .lf, []⟩) [
]⟩

/-- README.md:562-564, or multiline 2 -/
def three2 : Str :=
  c!"main = 'hello'\n" ++
  c!"     / 'hi'\n" ++
  c!"     / 'hola'\n"

def three2Doc : Doc :=
  ⟨[], defsOf (.rule c!"main" [.sp] [.sp] (.cons (.item (.plain (.lit (.single c!"hello"))) .nil) ([.eol .lf] ++ sps 5) [.sp] (.cons (.item (.plain (.lit (.single c!"hi"))) .nil) ([.eol .lf] ++ sps 5) [.sp] (.one (.item (.plain (.lit (.single c!"hola"))) .nil)))) ⟨[], .lf, []⟩) [
]⟩

/-- README.md:570-571, or disorganized -/
def three3 : Str :=
  c!"main = 'hello'\n" ++
  c!"     / 'hi' / 'hola'\n"

def three3Doc : Doc :=
  ⟨[], defsOf (.rule c!"main" [.sp] [.sp] (.cons (.item (.plain (.lit (.single c!"hello"))) .nil) ([.eol .lf] ++ sps 5) [.sp] (.cons (.item (.plain (.lit (.single c!"hi"))) .nil) [.sp] [.sp] (.one (.item (.plain (.lit (.single c!"hola"))) .nil)))) ⟨[], .lf, []⟩) [
]⟩

/-- README.md:590-590, parenthesis -/
def par1 : Str :=
  c!"main = ('hello' / 'hi')  ' world'\n"

def par1Doc : Doc :=
  ⟨[], defsOf (.rule c!"main" [.sp] [.sp] (.one (.item (.plain (.par [] (.cons (.item (.plain (.lit (.single c!"hello"))) .nil) [.sp] [.sp] (.one (.item (.plain (.lit (.single c!"hi"))) .nil))) [])) (.item [.sp, .sp] (.plain (.lit (.single c!" world"))) .nil))) ⟨[], .lf, []⟩) [
]⟩

/-- README.md:598-599, multiline 1 -/
def par2 : Str :=
  c!"main\n" ++
  c!"    = ('hello' / 'hi')  ' world'\n"

def par2Doc : Doc :=
  ⟨[], defsOf (.rule c!"main" ([.eol .lf] ++ sps 4) [.sp] (.one (.item (.plain (.par [] (.cons (.item (.plain (.lit (.single c!"hello"))) .nil) [.sp] [.sp] (.one (.item (.plain (.lit (.single c!"hi"))) .nil))) [])) (.item [.sp, .sp] (.plain (.lit (.single c!" world"))) .nil))) ⟨[], .lf, []⟩) [
]⟩

/-- README.md:605-607, multiline 2 -/
def par3 : Str :=
  c!"main\n" ++
  c!"    = ('hello' / 'hi')\n" ++
  c!"    ' world'\n"

def par3Doc : Doc :=
  ⟨[], defsOf (.rule c!"main" ([.eol .lf] ++ sps 4) [.sp] (.one (.item (.plain (.par [] (.cons (.item (.plain (.lit (.single c!"hello"))) .nil) [.sp] [.sp] (.one (.item (.plain (.lit (.single c!"hi"))) .nil))) [])) (.item ([.eol .lf] ++ sps 4) (.plain (.lit (.single c!" world"))) .nil))) ⟨[], .lf, []⟩) [
]⟩

/-- README.md:613-614, multiline 3 -/
def par4 : Str :=
  c!"main = ('hello' / 'hi')\n" ++
  c!"     ' world'\n"

def par4Doc : Doc :=
  ⟨[], defsOf (.rule c!"main" [.sp] [.sp] (.one (.item (.plain (.par [] (.cons (.item (.plain (.lit (.single c!"hello"))) .nil) [.sp] [.sp] (.one (.item (.plain (.lit (.single c!"hi"))) .nil))) [])) (.item ([.eol .lf] ++ sps 5) (.plain (.lit (.single c!" world"))) .nil))) ⟨[], .lf, []⟩) [
]⟩

/-- README.md:622-623, multiline organized -/
def organized : Str :=
  c!"main = ('hello' / 'hi')  ' world'\n" ++
  c!"     / 'bye'\n"

def organizedDoc : Doc :=
  ⟨[], defsOf (.rule c!"main" [.sp] [.sp] (.cons (.item (.plain (.par [] (.cons (.item (.plain (.lit (.single c!"hello"))) .nil) [.sp] [.sp] (.one (.item (.plain (.lit (.single c!"hi"))) .nil))) [])) (.item [.sp, .sp] (.plain (.lit (.single c!" world"))) .nil)) ([.eol .lf] ++ sps 5) [.sp] (.one (.item (.plain (.lit (.single c!"bye"))) .nil))) ⟨[], .lf, []⟩) [
]⟩

/-- README.md:629-629, one optional -/
def optional : Str :=
  c!"main = ('hello' / 'hi')  ' world'?\n"

def optionalDoc : Doc :=
  ⟨[], defsOf (.rule c!"main" [.sp] [.sp] (.one (.item (.plain (.par [] (.cons (.item (.plain (.lit (.single c!"hello"))) .nil) [.sp] [.sp] (.one (.item (.plain (.lit (.single c!"hi"))) .nil))) [])) (.item [.sp, .sp] (.opt (.lit (.single c!" world"))) .nil))) ⟨[], .lf, []⟩) [
]⟩

/-- README.md:635-637, repetitions -/
def repetitions : Str :=
  c!"main         = one_or_more_a / zero_or_many_b\n" ++
  c!"one_or_more  = 'a'+\n" ++
  c!"zero_or_many = 'b'*\n"

def repetitionsDoc : Doc :=
  ⟨[], defsOf (.rule c!"main" (sps 9) [.sp] (.cons (.item (.plain (.ref c!"one_or_more_a")) .nil) [.sp] [.sp] (.one (.item (.plain (.ref c!"zero_or_many_b")) .nil))) ⟨[], .lf, []⟩) [
    .rule c!"one_or_more" [.sp, .sp] [.sp] (.one (.item (.plus (.lit (.single c!"a"))) .nil)) ⟨[], .lf, []⟩,
    .rule c!"zero_or_many" [.sp] [.sp] (.one (.item (.star (.lit (.single c!"b"))) .nil)) ⟨[], .lf, []⟩]⟩

/-- README.md:653-659, consume till -/
def comment : Str :=
  c!"//  This is a line comment\n" ++
  c!"/*  This is a\n" ++
  c!"    multiline comment  */\n" ++
  c!"comment = '//' (!'\\n' .)*       //  line comment can be at the end of line\n" ++
  c!"        / '/*' (!'*/' .)* '*/'  /*  a multiline comment can start\n" ++
  c!"                                    at any place\n" ++
  c!"                                */\n"

def commentDoc : Doc :=
  ⟨[.line c!"  This is a line comment" .lf, .multi c!"  This is a\n    multiline comment  ", .eol .lf], defsOf (.rule c!"comment" [.sp] [.sp] (.cons (.item (.plain (.lit (.single c!"//"))) (.item [.sp] (.star (.par [] (.one (.item (.not (.lit (.single c!"\\n"))) (.item [.sp] (.plain (.dot)) .nil))) [])) .nil)) (sps 7 ++ [.line c!"  line comment can be at the end of line" .lf] ++ sps 8) [.sp] (.one (.item (.plain (.lit (.single c!"/*"))) (.item [.sp] (.star (.par [] (.one (.item (.not (.lit (.single c!"*/"))) (.item [.sp] (.plain (.dot)) .nil))) [])) (.item [.sp] (.plain (.lit (.single c!"*/"))) .nil))))) ⟨[.sp, .sp, .multi c!"  a multiline comment can start\n                                    at any place\n                                "], .lf, []⟩) [
]⟩

/-- README.md:679-683, simple recursion -/
def recursion : Str :=
  c!"as  = 'a' as\n" ++
  c!"    / 'a'\n" ++
  c!"\n" ++
  c!"//  simplified with `+`\n" ++
  c!"ak = 'a'+\n"

def recursionDoc : Doc :=
  ⟨[], defsOf (.rule c!"as" [.sp, .sp] [.sp] (.cons (.item (.plain (.lit (.single c!"a"))) (.item [.sp] (.plain (.ref c!"as")) .nil)) ([.eol .lf] ++ sps 4) [.sp] (.one (.item (.plain (.lit (.single c!"a"))) .nil))) ⟨[], .lf, [.eol .lf, .line c!"  simplified with `+`" .lf]⟩) [
    .rule c!"ak" [.sp] [.sp] (.one (.item (.plus (.lit (.single c!"a"))) .nil)) ⟨[], .lf, []⟩]⟩

/-- README.md:691-692, recursion to match parenthesis -/
def matchPar : Str :=
  c!"match_par = '(' match_par ')'\n" ++
  c!"          / '(' ')'\n"

def matchParDoc : Doc :=
  ⟨[], defsOf (.rule c!"match_par" [.sp] [.sp] (.cons (.item (.plain (.lit (.single c!"("))) (.item [.sp] (.plain (.ref c!"match_par")) (.item [.sp] (.plain (.lit (.single c!")"))) .nil))) ([.eol .lf] ++ sps 10) [.sp] (.one (.item (.plain (.lit (.single c!"("))) (.item [.sp] (.plain (.lit (.single c!")"))) .nil)))) ⟨[], .lf, []⟩) [
]⟩

/-- README.md:732-733, errors -/
def parenthesised : Str :=
  c!"    main    =   '('  main  ')'\n" ++
  c!"            /   'hello'\n"

def parenthesisedDoc : Doc :=
  ⟨(sps 4), defsOf (.rule c!"main" (sps 4) (sps 3) (.cons (.item (.plain (.lit (.single c!"("))) (.item [.sp, .sp] (.plain (.ref c!"main")) (.item [.sp, .sp] (.plain (.lit (.single c!")"))) .nil))) ([.eol .lf] ++ sps 12) (sps 3) (.one (.item (.plain (.lit (.single c!"hello"))) .nil))) ⟨[], .lf, []⟩) [
]⟩

/-- README.md:666-671, match a set of chars -/
def classes : Str :=
  c!"number  = digit+ ('.' digit+)?\n" ++
  c!"digit   = [0-9]\n" ++
  c!"a_or_b  = [ab]\n" ++
  c!"id      = [_a-zA-Z][_a-zA-Z0-9]*\n" ++
  c!"\n" ++
  c!"a_or_b_or_digit  = [ab0-9]\n"

/-- README.md:858-866, atoms -/
def atoms : Str :=
  c!"atom    =   literal\n" ++
  c!"        /   match\n" ++
  c!"        /   dot\n" ++
  c!"        /   symbol\n" ++
  c!"\n" ++
  c!"literal =   \"\\\"\"  (!\"\\\"\" .)*  \"\\\"\"\n" ++
  c!"match   =   '['  ((.  '-'  .)  /  (.))+   ']'\n" ++
  c!"dot     =   '.'\n" ++
  c!"symbol  =   [a-zA-Z0-9_]+\n"

end DP.Spec.Readme
