# Formal model of jleahred/dynparser in Lean 4 — design

dynparser is a PEG parser library: rules are given as data (macros) or as a PEG text, `parse` runs them on a
text and returns an AST, helpers walk the AST, and a code generator turns rules back into Rust source.

## Layout

* `lean/Verif/Model/*` — the model, function by function. Every definition cites the file and lines of `/repo`.
* `lean/Verif/Spec/*` — independent specifications. They use the data types of the model (`Expr`, `Node`,
  `Error`, …) and a few list/character operations, never the functions of the model.
* `lean/Verif/Proofs/*` — lemmas.
* `lean/Verif/Props/*` — the property theorems `Cnn_…`, each with a concrete `example` next to it showing that
  its hypotheses can be met (or that what it says is not trivially true).
* `lean/Verif/Tests.lean` — the unit tests and doc examples of the repository, evaluated on the model with the
  interpreter (`#guard`). They are *tests* that the model behaves as the repository expects; they prove no property.
* `properties.jsonl`, `MANIFEST.json` (written by `tools/manifest.py`), `AXIOMS.md` (written by
  `tools/axioms.py`), `seeded/LOG.jsonl` (wrong programs tried against the theorems).

## Trusted base

* The Lean 4 kernel, and the standard axioms of Lean that the proofs use: `propext`, `Classical.choice`,
  `Quot.sound`. `AXIOMS.md` lists the axioms of every theorem of the manifest. There are no axioms of our own,
  no `sorry`, no `native_decide` and no `bv_decide`. Closed facts about the built-in grammar are evaluated by
  the kernel (`decide +kernel`).
* The model: that the definitions in `Model/` do what the cited Rust code does (checked by reading, by
  `Tests.lean`, and for the constant texts by `tools/checktext.py`, which compares them with `/repo`).
* The specifications in `Spec/`: that they say what their comments say.
* For C41, C42 and C44: that `Spec/RustCode.lean` describes the Rust literals and the macros of `src/lib.rs`.

## What is modelled

| source | model | remarks |
|---|---|---|
| src/lib.rs `parse`, `parse_debug`, `parse_with_debug` | Model/Parser.lean | complete |
| src/lib.rs macros | Spec/RustCode.lean | as the meaning of Rust source text; `rules!` also as `SetOfRules.ofList` |
| src/parser/mod.rs (`Status`, `Error`, positions) | Model/Parser.lean | complete |
| src/parser/atom/mod.rs | Model/Parser.lean | complete, `MatchRules` inlined into `Atom` |
| src/parser/expression/mod.rs | Model/Parser.lean | complete; `Display for NRep` is in Model/Equal.lean |
| src/ast/mod.rs, src/ast/flat.rs | Model/Ast.lean, Model/Flat.lean | complete |
| src/peg/mod.rs | Model/Peg.lean | complete, with `Display for Error` |
| src/peg/rules.rs | Model/PegRules.lean (table), Model/PegText.lean (source lines) | C42 proves that they agree |
| src/peg/gcode.rs | Model/Gcode.lean | complete |
| src/peg/peg2code.rs, src/main.rs | Model/PegText.lean (text), Model/Program.lean (program) | complete; what is printed is a text, the terminal is not modelled |
| `derive(Debug)` (`{:?}`, `{:#?}`) of trees, flat trees, rules and errors | Model/Debug.lean | the formatter is the standard library's, see below |
| `derive(PartialEq, PartialOrd, Ord)` of trees, flat trees, errors, positions, priorities | Model/Equal.lean | written out as `derive` does: variant, then fields in order |
| src/parser/expression/mod.rs, the recursion itself | Model/Meter.lean | counts the calls of `parse_expr`; C53_same_parser: otherwise the same functions |
| src/parser/expression/mod.rs, the calls one by one | Model/Calls.lean | lists what each call of `parse_expr` is given; C102_number: as many as Model/Meter.lean counts |
| src/parser/expression/mod.rs, the vectors of nodes | Model/Nodes.lean | counts the nodes moved by `iappend` and the characters of new values and names; not the growth of the vectors, nor the freeing of nodes given up. What each call returns is taken from Model/Parser.lean |
| src/parser/expression/mod.rs, the nodes alive | Model/Held.lean | the greatest number of nodes at one time; vectors given up count as freed at once, spare capacity is not counted. What each call returns is taken from Model/Parser.lean |
| src/parser/atom/mod.rs:103-193, how far it looks | Model/Looks.lean | the characters that each atom compares, the end of the text counted as one place; the calls are taken from Model/Calls.lean |
| src/parser/mod.rs, src/parser/expression/mod.rs, the copies of errors | Model/Copies.lean | counts the characters of the text copied into errors and into copies of the status; C82_same_parser: otherwise the same functions |
| src/parser/expression/mod.rs, on a limited call stack | Model/Stack.lean | the sizes of the frames are parameters; C84_same_answer: otherwise the same functions. Not counted: dropping a deep tree, which recurses too (C99) |
| src/parser/mod.rs, src/parser/expression/mod.rs, src/lib.rs:503-521, the copies of the lists of rules | Model/Names.lean | counts the names written into `walking_rules` and `parsing_rules`; not the characters of the names, nor the growth of the vectors; C88_same_parser: otherwise the same functions |
| src/peg/gcode.rs, the calls in progress and the characters written | Model/GcodeCost.lean | C97_depth, C97_copies: otherwise the same functions; not what strings copy when they grow |
| src/ast/mod.rs:173-208 `Node::compact`, the characters copied | Model/TreeCopies.lean | the characters of values; not the names of rules, nor what the vectors of the crate idata copy |
| src/ast/mod.rs:72-208, src/ast/flat.rs:81-95, the calls in progress | Model/TreeStack.lean | the functions on trees with a bound on their nested calls; closures and the standard library are not counted |
| derived `==` and `{:?}`, `Display for peg::Error` and the compiler's code that drops trees, rules and errors, the calls in progress | Model/Derived.lean | calls for one value inside another; those of the standard library in between, a fixed number, are not counted; `==` of vectors compares the lengths first |
| src/peg/mod.rs:201-933, the calls in progress | Model/PegStack.lean | the fuel of Model/Peg.lean, read as a bound on nested calls of the recursive functions; calls of the others, a fixed number between two of these, are not counted |
| src/parser/, the `usize` arithmetic | Model/Machine.lean | machine numbers instead of `Nat`; C59: the same answers |

Not modelled: the derived `Clone` implementations, the terminal, memory and time. How many calls of `parse_expr` a run makes and how deep
they nest is measured by Model/Meter.lean and bounded by C52 and C53; how much time a call takes is not modelled. The functions of Model/Parser.lean
have as much stack as they need; on a stack of a given size the same functions are in Model/Stack.lean (C84), where the bytes a frame takes
are unknowns.

## How the code is modelled

* `&str`/`String` → `Str = List Char`. Byte lengths and byte slices are computed with `Char.utf8Size`, so that
  the confusion of characters and bytes in the code is visible: a slice that is out of range or not at a
  character boundary is `panic`.
* `usize` → `Nat`. That this is faithful is proved, not assumed: Model/Machine.lean is the same parser with machine
  numbers of any width, checked or wrapping, and gives the same answers whenever the answer is not `diverge`
  (C59). So every property below of a run that returns also holds with machine numbers.
* `Result<T, E>`, panics and non-termination → `Out ε α = ok | err | panic | diverge`. The recursive functions take
  fuel, one unit per nested call (and per iteration of the `tail_call` loops); without fuel they answer
  `diverge`. The API functions (`parse`, `rulesFromPeg`, …) are fuel-free: they give the answer that is
  reached with enough fuel, and `diverge` if there is none (`limit` in Model/Basic.lean). More fuel never
  changes an answer (Proofs/Fuel.lean), so this is well defined.
* `HashMap<String, Expression>` → association list; `get` finds the first entry, `insert` replaces. Its
  iteration order is unspecified; the only place where it is observable is `rust_from_rules`, which is therefore
  a relation (`RustFromRules R code`: some order of the entries gives `code`).
* `Error::descr` → structured type `Descr`; `Descr.render` gives the text. `{:?}` of a vector of ranges is a
  parameter of the rendering (instantiated in Model/Debug.lean).
* `{:?}` and `{:#?}` → Model/Debug.lean, after `core::fmt::builders` and `char::escape_debug_ext`. What differs between
  versions of the standard library (comma after the last entry of `{:#?}`, quotes escaped where they need not be,
  NUL, which characters beyond ASCII are printable) is a parameter `Style`; C51 holds for every style.
* `idata` (`tail_call`, `ipush`, `iappend`, `ipop`, `consume_char`) is an external crate; it is modelled by its
  documented meaning (loop, push, append, pop, first character).
* `Status` is threaded as a value, as in the code. Its fields `rules` (never changed) is a separate argument.
* `u8::from_str_radix` is modelled as in the standard library, including the optional `+`.

## The specifications

* `Spec/Peg.lean`: textbook PEG semantics as an inductive relation between expressions, texts and outcomes
  (`ok rest nodes`, `fail`, `crit`), extended with final errors. `Spec/Bounds.lean`: which bounds a repetition
  amounts to.
* `Spec/Report.lean`: the same semantics refined with everything observable in errors: what was expected, where,
  the fault kept from a repetition that stopped, the rules entered, and when the text before an error cannot
  be sliced. C47 proves that `parse` and `parse_debug` answer *exactly* as prescribed on *every* text, with all
  fields of the error. Every other property of `parse` is a readable consequence or a fact about this semantics.
* `Spec/Text.lean`: lines, columns. `Spec/Tree.lean`, `Spec/Ast.lean`: leaves, outlines, joined runs, brackets.
* `Spec/PegSyntax.lean`: the concrete syntax of PEG texts. A `Doc` records every character of a text; `Doc.str` is
  the text, `Doc.denote` the rules it stands for, `Doc.OK` excludes readings that the text does not have.
  C45/C46 prove that the built-in grammar accepts exactly the texts of documents and that `rules_from_peg`
  returns exactly their meaning. `Spec/Complaint.lean`: the first fault of a document without meaning and how it
  is reported; with it, C48 describes every error of `rules_from_peg`.
  `Spec/Requote.lean`: single-quoted literals written between double quotes (C91). `Spec/CodeOf.lean`: the escapes of Rust in unescaped text (C92). `Spec/RuleSize.lean`: the size of rules (C93).
* `Spec/PegPrint.lean`: a printer for rules (C33). `Spec/SelfDoc.lean`: the text of peg2code.rs as a document,
  generated by `tools/gendoc.py` and proved to have that text. `Spec/Readme.lean`, `Spec/ReadmeRules.lean`: grammars of README.md, copied
  and turned into documents by the same script (`tools/checktext.py` compares the copies with the sources).
* `Spec/Lines.lean`: the lines of `{:#?}` (C51).
* `Spec/ReadmeLang.lean`: the languages that README.md says those grammars describe, among them a context-free
  grammar of arithmetic expressions (C60) and what is printed for them (C61).
* `Spec/Extend.lean`: expressions that lead to no missing rule (C62).
* `Spec/ContextFree.lean`: rules as a context-free grammar, and LL(1) (C63). `Proofs/Ll1Check.lean` checks tables of
  first and following characters, for examples.
* `Spec/Linear.lean`, `Spec/Viable.lean`: rules without useless parts (C67, C68).
* `Spec/Nesting.lean`: how many unbounded repetitions are inside of one another (C69).
* `Spec/Glue.lean`: expressions whose trees differ only in how the text is cut into leaves (C70).
* `Spec/Swap.lean`: other characters in the text and other atoms in the rules (C74).
* `Spec/Counter.lean`: machines with two counters and the texts of their histories (C75).
* `Spec/TreeSize.lean`: number of nodes and depth of a tree (C76).
* `Spec/Trace.lean`: a moment of a match, with the nodes complete and the rules open at that moment (C79).
* `Spec/TailCalls.lean`: recursion in last position only (C77).
* C78 speaks of algorithms as Mathlib does (`ComputablePred`, `REPred` over `Nat.Partrec`). Proofs/Loops.lean and Proofs/Minsky.lean prove
  that machines with two counters compute every partial recursive function.
* `Spec/Tokens.lean`: the tokens of a document, and one token per line (C57).
* `Spec/Regroup.lean`: the laws of grammars of C49 (`Same`: no answer changes) and C50 (`Alike`: the trees stay).
* `Spec/Rename.lean`: rules, trees and errors with other names (C54). `Spec/Inline.lean`: the body of a rule in place of
  its name (C55).
* `Spec/Effort.lean`: how many expressions a matcher without memory matches, and how many inside of one another (C53, C80).
* `Spec/Derived.lean`: how deep trees, expressions, errors and their texts are (C99).
* `Spec/IfElse.lean`: statements with an optional `else`, as texts and as trees (C100).
* `Spec/Nested.lean`: comments inside of comments (C101).
* `Spec/Levels.lean`: expressions with operators of several levels, as texts and read from trees (C98).
* `Spec/Calls.lean`: the expressions that occur in rules (C102).
* `Spec/Nodes.lean`: the characters in trees and expressions (C103).
* `Spec/Json.lean`: JSON after RFC 8259, limited to ASCII: values, the texts of a value, one way to write each, and how a value is read from a tree (C105).
* `Spec/Codes.lean`: a text cut into words of a list, each time the first one that begins what is left (C110).
* `C111` is stated with `Nat.toDigits 10` of the Lean library as the numeral of a number and `dottedQuad` (Props/Numerals.lean) for four texts with dots.
* `C112` is stated with `towerText`, `towerTree` and `Operand` (Props/RightAssoc.lean), which use no function of the model.
* `Spec/Labour.lean`: the nodes moved and the characters written while an expression is matched (C103).
* `Spec/Pending.lean`: the numbers of nodes that there are at the moments of matching an expression, and the greatest of them (C104).
* `Spec/Csv.lean`: tables after RFC 4180, without a line break after the last record: the texts of a table, one way to write each, and how a table is read from a tree (C108).
* `Spec/CodeDepth.lean`: how many calls of the code generator an expression needs (C97).
* `Spec/CodeText.lean`: the exact text of the generated code (C40).
* `Spec/RustCode.lean`: what a Rust expression made of the macros denotes.
* `Spec/WellFormed.lean`: well-formed grammars (no left recursion, no unbounded repetition of the empty string).

## Behaviour worth knowing (established by the proofs)

* Positions count characters but are compared with byte lengths and used to slice bytes: a text with a
  non-ASCII character is never accepted (C17) and may panic (C47 says exactly when; C31: even in a comment of a
  PEG text). Where the atoms are ASCII and without `.` it panics as soon as it is looked at, whatever it is and whatever follows;
  so do the calculator of README.md and, but for ranges such as `[a-é]`, `rules_from_peg` (C83).
* `rep!(e, min, 0)` is unbounded and `rep!(e, min, max)` with `max < min` means exactly `max` (C06).
* Left recursion, and unbounded repetition of something that matches the empty string, never return (C13). The former
  overflows the stack, the latter hangs (C52). Right recursion also needs stack in proportion to the text (C52).
  Hence a nested text overflows any stack: `((...(1)...))` for the calculator of README.md, `main=((...(.)...))` for `rules_from_peg` (C84).
* What `rules_from_peg` does after parsing (src/peg/mod.rs) repeats by recursion: the calls in progress grow with the number of
  rules, of parts of a sequence or choice, of ranges of a class and of escapes in a literal, nested or not (C85).
* `rust_from_rules` recurses once for each range of a class, and copies the code of all later ranges each time; it also copies the
  code of a sequence again for each of its parts (C97).
* `prune`, `pass_through_except`, `compact` and `flatten` recurse as deep as the tree, which can be as deep as the text is long (C87).
* `compact` is quadratic in the number of adjacent values: it copies what it has joined so far three times for each further value (C86).
* `parse_debug` copies the list of rules with every status and error: quadratic for a plain list `x*` (C88).
* `(!x .)* x` finds the first match of any `x`, also of one that ends in a final error at the places before (C89); `field (sep field)*` splits at the separators, from the left (C90).
* Single quotes double the backslashes and the generator does not escape them. The two cancel out: code generated from a text takes single-quoted literals verbatim, while the rules themselves look for doubled backslashes. No literal with a backslash means the same in both (C91).
* A double-quoted literal with a backslash before a quote (or at its end) ends the string literal in the generated code at the wrong place. Text of literals and classes is then read as code: there is a PEG text whose generated code compiles and builds a sequence of three parts instead of two (C92).
* Rules are at most twice as big as their text and generated code at most 50 times as long (C93).
* Nothing is memoized: small grammars take exponential time (C53), LL(1) grammars without useless parts linear
  time (C67). Without recursion the nesting of unbounded repetitions is the exponent (C69).
  Reading a PEG text is quadratic, no better and no worse (C71).
  The calculator of README.md takes exponential time on unclosed parentheses, linear time on what it accepts; one useless alternative is the reason (C81).
  All of this counts calls. Every failed attempt also copies its line into an error, mostly to throw it away, and every copy of the status copies the remembered one:
  on a text of one line linearly many calls can copy quadratically many characters, as the calculator does on a long number (C82).
  Regular languages are linear (C73), and rules can be combined to accept what both, one or none of two rule sets accept (C72).
* Whether rules accept any text, and whether they always return, cannot be checked exactly: rules can describe the histories of a machine (C75).
* `parsing_rules`, documented as the "rules path followed till got the error", is not only the path of open rules: rules that have been left stay in it (C79).
* A returned tree is never bigger than a multiple of the text, also for rules whose parsing takes exponential time or does not return on other texts (C76).
* Rules whose recursion is in last position only accept exactly the regular languages of ASCII texts; lookahead, ordered choice, `error()` and left recursion in last position do not change this (C77).
* The EOF atom leaves the *value* node `"EOF"`, not `Node::EOF`, so the leaves no longer spell the input (C03).
* `not!` also succeeds on final errors (`error(...)`, missing rule) inside it (C07).
* The error of an incomplete match is the one remembered from the most recently stopped repetition, which may be
  far before the end of the match (C21). A wrong character is reported at the place after it. For LL(1) rules the place is never after
  a later character than the first wrong one, but it can be before that one (C68).
* Rules of modules are registered under their bare names: `mod.rule` cannot be referred to (C37). Put after another text, a module only fills in what the first text
  does not define, while a rule replaces (C58).
* In PEG texts: `''` is a syntax that is accepted and then refused; so is `error(...)` before further elements
  (C38). Single-quoted literals double their backslashes (C35). A `//` comment swallows the end of line that its
  rule needs (C43, README says otherwise). The last rule needs an end of line. In a class, a `-` after the listed
  characters always belongs to a range.
* Generated code: backslashes are not escaped (C41); a class without ranges lacks a comma; `eof!()` is emitted but
  there is no such macro; quotes and escapes in ranges, and `"#` in names or classes, break the literals (C44).
* Four grammars of README.md do not work as written: two are syntax errors, one uses rules it does not define, one
  has line comments that go on over the end of the line (C64).
* A negation takes a missing rule for a mismatch, so adding the rule can make accepted texts refused (C62).
* `rules_from_peg(text_peg2code())` is not `parse_peg()`, only the generated code is (C42).
* `consume_this_value` reports a wrong value with the text for an empty slice (C29).
* A complaint about a PEG text names the constructs around the fault but neither the rule nor the position (C48).
* `prune` and `pass_through_except` never remove the root (C24, C25).

## Properties that were expected and are false

C06 (degenerate bounds), C13 (always returns), C17 (non-ASCII), C21 (error at the end of the match), C35
(verbatim), C37 (module prefixes), C38 (accepted texts compile), C41/C44 (generated code), C43 (README on
comments). For these the theorem list contains both a refutation and the exact statement that holds.

## Wrong programs

`seeded/LOG.jsonl` has one line per edit tried on a scratch copy of the model. The theorems listed as failed are
the first ones the build stopped at; modules that depend on them were not reached. That a lemma about an edited
definition fails says little, so each line also records a *witness*: a call of the API on which the edited program
answers differently, found by running both models on a corpus of calls. The property theorems that determine this
answer (for `parse` and `parse_debug`: C47, an iff for all answers) are false of the edited program.
