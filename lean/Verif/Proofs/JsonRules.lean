/-
The PEG text of JSON that C105 is about, and what each of its rules derives.
-/
import Verif.Spec.Json
import Verif.Proofs.Gens
import Verif.Proofs.Ll1Check
import Verif.Proofs.WfCheck
import Verif.Proofs.Linear
import Verif.Props.PegFront

namespace DP
open Spec

/-- the PEG text -/
def jsonPeg : Str := c!"main = ws value
value = (object / array / string / number / word) ws
object = '{' ws ('}' / member (',' ws member)* '}')
member = string ws ':' ws value
array = '[' ws (']' / value (',' ws value)* ']')
string = '\"' char* '\"'
char = [ -!#-[]-\x7f] / \"\\\\\" ([\"\\/bfnrt] / 'u' hex hex hex hex)
hex = [0-9A-Fa-f]
number = '-'? ('0' / [1-9] digit*) ('.' digit+)? ([eE] ('+' / '-')? digit+)?
digit = [0-9]
word = 'true' / 'false' / 'null'
ws = (' ' / \"\\t\" / \"\\n\" / \"\\r\")*
"

def jLit (s : Str) : Expr := .simple (.literal s)
def jMany (e : Expr) : Expr := .rep e 0 none
def jSome (e : Expr) : Expr := .rep e 1 none
def jOpt (e : Expr) : Expr := .rep e 0 (some 1)

def jValueBody : Expr := .or [.ruleName c!"object", .ruleName c!"array", .ruleName c!"string", .ruleName c!"number", .ruleName c!"word"]
def jMembersBody : Expr := .and [.ruleName c!"member", jMany (.and [jLit c!",", .ruleName c!"ws", .ruleName c!"member"]), jLit c!"}"]
def jItemsBody : Expr := .and [.ruleName c!"value", jMany (.and [jLit c!",", .ruleName c!"ws", .ruleName c!"value"]), jLit c!"]"]
def jEscapeBody : Expr := .or [.simple (.mtch ['"', '\\', '/', 'b', 'f', 'n', 'r', 't'] []),
  .and [jLit c!"u", .ruleName c!"hex", .ruleName c!"hex", .ruleName c!"hex", .ruleName c!"hex"]]
def jNumberBody : Expr := .and [jOpt (jLit c!"-"),
  .or [jLit c!"0", .and [.simple (.mtch [] [('1', '9')]), jMany (.ruleName c!"digit")]],
  jOpt (.and [jLit c!".", jSome (.ruleName c!"digit")]),
  jOpt (.and [.simple (.mtch ['e', 'E'] []), jOpt (.or [jLit c!"+", jLit c!"-"]), jSome (.ruleName c!"digit")])]

def jsonRules : SetOfRules := ⟨[
  (c!"ws", jMany (.or [jLit c!" ", jLit c!"\t", jLit c!"\n", jLit c!"\r"])),
  (c!"word", .or [jLit c!"true", jLit c!"false", jLit c!"null"]),
  (c!"digit", .simple (.mtch [] [('0', '9')])),
  (c!"number", jNumberBody),
  (c!"hex", .simple (.mtch [] [('0', '9'), ('A', 'F'), ('a', 'f')])),
  (c!"char", .or [.simple (.mtch [] [(' ', '!'), ('#', '['), (']', '\x7f')]), .and [jLit c!"\\", jEscapeBody]]),
  (c!"string", .and [jLit c!"\"", jMany (.ruleName c!"char"), jLit c!"\""]),
  (c!"array", .and [jLit c!"[", .ruleName c!"ws", .or [jLit c!"]", jItemsBody]]),
  (c!"member", .and [.ruleName c!"string", .ruleName c!"ws", jLit c!":", .ruleName c!"ws", .ruleName c!"value"]),
  (c!"object", .and [jLit c!"{", .ruleName c!"ws", .or [jLit c!"}", jMembersBody]]),
  (c!"value", .and [jValueBody, .ruleName c!"ws"]),
  (c!"main", .and [.ruleName c!"ws", .ruleName c!"value"])]⟩

theorem json_rules : rulesFromPeg jsonPeg = .ok jsonRules := rulesFromPeg_of 400 (by decide +kernel)

def jStarts : List (Char × Char) := [('{', '{'), ('[', '['), ('"', '"'), ('-', '-'), ('0', '0'), ('1', '9'), ('t', 't'), ('f', 'f'), ('n', 'n')]
def jBlanks : List (Char × Char) := [(' ', ' '), ('\t', '\t'), ('\n', '\n'), ('\r', '\r')]
def jChars : List (Char × Char) := [(' ', '!'), ('#', '['), (']', '\x7f'), ('\\', '\\')]
def jFst (n : Str) : List (Char × Char) :=
  if n = c!"ws" then jBlanks
  else if n = c!"word" then [('t', 't'), ('f', 'f'), ('n', 'n')]
  else if n = c!"digit" then [('0', '9')]
  else if n = c!"number" then [('-', '-'), ('0', '0'), ('1', '9')]
  else if n = c!"hex" then [('0', '9'), ('A', 'F'), ('a', 'f')]
  else if n = c!"char" then jChars
  else if n = c!"string" then [('"', '"')]
  else if n = c!"array" then [('[', '[')]
  else if n = c!"member" then [('"', '"')]
  else if n = c!"object" then [('{', '{')]
  else if n = c!"value" then jStarts
  else jBlanks ++ jStarts
def jAfter : List (Option (Char × Char)) := [none, some (',', ','), some (']', ']'), some ('}', '}')]
def jFol (n : Str) : List (Option (Char × Char)) :=
  if n = c!"main" then [none]
  else if n = c!"value" then jAfter
  else if n = c!"member" then [some (',', ','), some ('}', '}')]
  else if n = c!"ws" then jAfter ++ jStarts.map some ++ [some (':', ':')]
  else if n = c!"digit" then jAfter ++ jBlanks.map some ++ [some (':', ':'), some ('.', '.'), some ('e', 'e'), some ('E', 'E'), some ('0', '9')]
  else if n = c!"char" then some ('"', '"') :: jChars.map some
  else if n = c!"hex" then some ('"', '"') :: (jChars.map some ++ [some ('0', '9'), some ('A', 'F'), some ('a', 'f')])
  else jAfter ++ jBlanks.map some ++ [some (':', ':')]

theorem json_ll1 : (∀ n e, denotes jsonRules n = some e → Plain (denotes jsonRules) e) ∧ LL1 (denotes jsonRules) :=
  ll1_of_check (nul := [c!"ws"]) (fst := jFst) (fol := jFol) (by decide +kernel)

theorem json_wf : WellFormed (denotes jsonRules) :=
  wf_of_check (nul := [c!"ws"])
    (ranks := [c!"ws", c!"word", c!"digit", c!"number", c!"hex", c!"char", c!"string", c!"array", c!"member", c!"object", c!"value", c!"main"]) (by decide +kernel)

theorem json_productive : Productive (denotes jsonRules) := productive_of_check 40 (by decide +kernel)

end DP
