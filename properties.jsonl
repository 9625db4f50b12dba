{"id": "C01", "title": "Success means the whole input was consumed", "statement": "Whenever dynparser::parse(s, rules) returns Ok, the `main` rule matched all of s: nothing of s is left over. parse never reports success for a proper prefix.", "quantifier": "every input string, every set of rules", "why_tests_cant": "A test shows this for one grammar and one string; the guarantee is about every pair.", "anchors": ["src/lib.rs: parse, parse_with_debug", "src/parser/expression/mod.rs: parse, parse_expr"]}
{"id": "C02", "title": "parse decides exactly the PEG language of the rules", "statement": "For ASCII inputs, parse(s, rules) returns Ok(t) if and only if the textbook PEG semantics (ordered choice, greedy bounded repetition, negative lookahead, cut-like error atoms) derives t for `main` on all of s; otherwise it does not return Ok. Repetition bounds that cannot be met as written (max 0, or min > max) are read as the bounds the program enforces (a max of 0 is no max at all, a min above the max is the max); satisfiable bounds (1 <= max, min <= max) are read as written.", "quantifier": "every ASCII input, every set of rules, every AST", "why_tests_cant": "Equivalence with a declarative semantics quantifies over all grammars and inputs in both directions.", "anchors": ["src/lib.rs: parse, parse_with_debug", "src/parser/expression/mod.rs: parse_expr, parse_and, parse_or, parse_not, parse_repeat, parse_rule_name", "src/parser/atom/mod.rs: parse"]}
{"id": "C03", "title": "The leaves of the AST spell the input", "statement": "If no rule uses the EOF atom and parse(s, rules) = Ok(ast), concatenating the Val leaves of ast from left to right gives exactly s: no character is lost, duplicated, reordered or invented. With EOF atoms, the leaves give s followed by copies of the text \"EOF\" and nothing else.", "quantifier": "every input, every set of rules", "why_tests_cant": "Loss or duplication can hide in any combination of backtracking, repetition and nesting.", "anchors": ["src/lib.rs: parse, parse_with_debug", "src/parser/expression/mod.rs: parse_and, parse_or, parse_not, parse_repeat", "src/parser/atom/mod.rs: parse_literal, parse_dot, parse_match"]}
{"id": "C04", "title": "The AST mirrors the grammar", "statement": "If parse returns Ok(ast), ast is a Rule node named `main`; every Rule node in it is named by a rule of the set, and the children of each Rule node are an instance of the expression registered under that name (sequence = concatenation, choice = one alternative, repetition = between min and max copies, negation = nothing, terminal = one Val).", "quantifier": "every input, every set of rules (bounds that cannot be met are read as the ones that are enforced: max 0 is no maximum, a minimum above the maximum is the maximum)", "why_tests_cant": "Consumers of the AST pattern-match on this shape for every tree that can be produced.", "anchors": ["src/parser/expression/mod.rs: parse_rule_name, parse_expr"]}
{"id": "C05", "title": "Ordered choice commits to the first matching alternative", "statement": "or!(e1,...,en) at a position yields the result of the first ei that matches there provided all earlier ones failed with ordinary errors; alternatives after the chosen one have no influence; and it fails if all of them fail.", "quantifier": "every list of alternatives, every position of every ASCII text, every set of rules", "why_tests_cant": "Depends on every combination of succeeding/failing alternatives.", "anchors": ["src/parser/expression/mod.rs: parse_or"]}
{"id": "C06", "title": "Repetition is greedy and respects satisfiable bounds", "statement": "With satisfiable bounds (no upper bound, or max >= 1 and max >= min), rep!(e, min, max) matches e as many consecutive times as possible, never more than max and never fewer than min; if fewer than min matches are available it fails with the error of the missing match. An upper bound of 0 means no upper bound, and 1 <= max < min means exactly max matches (so the naive reading of the bounds is false for these two cases).", "quantifier": "every expression, all bounds, every text", "why_tests_cant": "Counting boundaries (k = min-1, min, max-1, max) for arbitrary min/max and bodies.", "anchors": ["src/parser/expression/mod.rs: parse_repeat, RepInfo"]}
{"id": "C07", "title": "Negation is pure lookahead", "statement": "not!(e) succeeds exactly when e does not match at the current position; it never moves the position and never contributes nodes to the AST. It also succeeds when e ends in a critical error.", "quantifier": "every expression, every position of every ASCII text", "why_tests_cant": "Position restoration must hold whatever e consumed before failing or succeeding.", "anchors": ["src/parser/expression/mod.rs: parse_not"]}
{"id": "C08", "title": "Sequence matches its parts contiguously and in order", "statement": "and!(e1,...,en) succeeds exactly when e1..en match one after the other on contiguous pieces of the text; its nodes are the concatenation of theirs; it fails as soon as one part fails, with that part's error.", "quantifier": "every list of expressions, every text", "why_tests_cant": "Length-n induction.", "anchors": ["src/parser/expression/mod.rs: parse_and"]}
{"id": "C09", "title": "Critical errors are final", "statement": "Once an error(\"...\") atom or a reference to an undefined rule is reached outside any negation, no alternative and no repetition recovers from it: parse returns exactly that error (description, Critical priority and position). Conversely any Critical error returned by parse stems from an error atom or an undefined rule.", "quantifier": "every set of rules, every ASCII text, any nesting depth of sequences, choices, repetitions and rule calls between main and the error", "why_tests_cant": "Recovery could happen at any enclosing choice/repetition at any depth.", "anchors": ["src/parser/expression/mod.rs: parse_or, parse_repeat, parse_rule_name", "src/parser/atom/mod.rs: parse_error", "src/parser/mod.rs: ErrPriority"]}
{"id": "C10", "title": "Closed rule sets never report a missing rule", "statement": "If every rule name referenced by the rules is defined and `main` is defined, parse never returns a `Missing rule` error; if `main` is undefined, parse always returns the Critical error `Missing rule: main` at position 0.", "quantifier": "every set of rules, every text", "why_tests_cant": "A missing reference may only be reached by some inputs.", "anchors": ["src/parser/expression/mod.rs: parse_rule_name"]}
{"id": "C11", "title": "The outcome is a function of the name-to-expression mapping and the text", "statement": "Two rule sets that map every name to the same expression give identical results on every input (Ok, Err with all its fields, panic, divergence), whatever the order of the entries in the hash map; and a terminating parse has exactly one result.", "quantifier": "every pair of extensionally equal rule sets, every input", "why_tests_cant": "HashMap iteration order is randomised per process.", "anchors": ["src/parser/expression/mod.rs: SetOfRules", "src/lib.rs: parse, parse_with_debug"]}
{"id": "C12", "title": "Parsing terminates for every input when the grammar is well-formed", "statement": "If no rule can call itself without consuming input (no left recursion, also through nullable prefixes, negations and choices) and no unbounded repetition has a body that can match the empty string, parse(s, rules) returns for every s.", "quantifier": "every well-formed set of rules, every input string of any length", "why_tests_cant": "Termination for all inputs.", "anchors": ["src/parser/expression/mod.rs: parse_repeat, parse_rule_name", "src/lib.rs: parse, parse_with_debug"]}
{"id": "C13", "title": "Left recursion and empty repetitions make parse loop forever", "statement": "parse does not return in general: whenever matching main on an ASCII text re-enters a rule at the same position, or reaches an unbounded repetition whose body matches the empty string there, parse(s, rules) never returns (the expectation that parse always returns is refuted, with two concrete grammars).", "quantifier": "every set of rules, every input", "why_tests_cant": "Non-termination cannot be observed by a test; only a proof shows that no number of steps suffices.", "anchors": ["src/parser/expression/mod.rs: parse_repeat, parse_rule_name"]}
{"id": "C14", "title": "Reported positions are the true coordinates of a point of the input", "statement": "For every error returned by parse there is a split s = before ++ after such that pos.n is the number of characters of `before`, pos.row the number of '\\n' in it, pos.col the number of characters since the last '\\n' or '\\r', and pos.start_line the index just after the last '\\n'.", "quantifier": "every set of rules, every input, every error", "why_tests_cant": "Every path through backtracking must restore or advance all four counters consistently.", "anchors": ["src/parser/atom/mod.rs: Status::get_char", "src/parser/mod.rs: Possition, Error::from_status"]}
{"id": "C15", "title": "The quoted line context is the line of the error", "statement": "For every error returned on ASCII input, line_before and line_after are the pieces of the input immediately before and after the error position: s = pre ++ line_before ++ line_after ++ post with |pre ++ line_before| = pos.n, pre empty or ending in '\\n', no '\\n' in line_before, no '\\n' or '\\r' in line_after, and post empty or starting with one of them.", "quantifier": "every set of rules, every ASCII input, every error", "why_tests_cant": "All line layouts and error places.", "anchors": ["src/parser/mod.rs: Error::from_status", "src/parser/atom/mod.rs: Status::get_char"]}
{"id": "C16", "title": "parse does not panic on ASCII input", "statement": "For every set of rules and every ASCII string, parse and parse_debug never panic: every slice taken to build an error message is in bounds.", "quantifier": "every set of rules, every ASCII string", "why_tests_cant": "Error construction happens at every failing branch, including ones later recovered.", "anchors": ["src/parser/mod.rs: Error::from_status"]}
{"id": "C17", "title": "Non-ASCII input is never accepted", "statement": "parse returns Ok only on ASCII strings, whatever the rules. There are rules and a non-ASCII string accepted by the PEG semantics on which parse panics. (The expectation that non-ASCII text is handled like any other is refuted: positions count characters but are compared with, and used to slice, bytes.)", "quantifier": "every set of rules, every string with at least one non-ASCII character", "why_tests_cant": "Universal negative over all non-ASCII strings and all grammars.", "anchors": ["src/lib.rs: parse, parse_with_debug", "src/parser/atom/mod.rs: Status::get_char", "src/parser/mod.rs: Error::from_status"]}
{"id": "C18", "title": "parse_debug agrees with parse", "statement": "parse_debug(s, rules) returns Ok(t) iff parse(s, rules) returns Ok(t), and Err with the same position, description, lines and priority iff parse does; only the rule trace may differ. It also panics or diverges exactly when parse does.", "quantifier": "every set of rules, every input", "why_tests_cant": "Two runs of the whole parser related for all inputs.", "anchors": ["src/lib.rs: parse, parse_debug", "src/parser/mod.rs: Status::init, init_debug"]}
{"id": "C19", "title": "The rule trace of an error is sound", "statement": "Errors from parse carry an empty parsing_rules. Errors from parse_debug carry a trace that starts with `r:main`, and in which every further entry is `r:` followed by a name that some rule of the set references.", "quantifier": "every set of rules, every input, every error", "why_tests_cant": "Trace passes through every backtracking point.", "anchors": ["src/parser/mod.rs: Status::push_rule", "src/parser/expression/mod.rs: parse_rule_name"]}
{"id": "C20", "title": "A failed choice reports its deepest error", "statement": "When all alternatives of an or! fail with ordinary errors, the reported error is one of the alternatives' errors, its position is the maximum of their positions, and among those with maximal position it is that of the last alternative. An empty or! reports its own position.", "quantifier": "every non-empty list of alternatives, every text", "why_tests_cant": "Maximum over arbitrary-length lists with ties.", "anchors": ["src/parser/expression/mod.rs: parse_or (deep_err)"]}
{"id": "C21", "title": "An incomplete match is reported where the latest repetition stopped", "statement": "When `main` matches only a proper prefix of s, the error returned is the one with which the body of a repetition of the grammar failed at a point of the matched part: the repetition that most recently stopped because its body failed, leaving out alternatives that were given up and lookaheads. If there was none, it is \"not consumed full input\" exactly at the end of the prefix; this is always the case when the rules have no repetitions. (The expectation that the error is never before the end of the prefix is refuted: the remembered error may be stale.)", "quantifier": "every set of rules, every ASCII input for which main matches a proper prefix", "why_tests_cant": "Depends on the whole history of repetitions.", "anchors": ["src/lib.rs: parse, parse_with_debug", "src/parser/mod.rs: Status::set_potential_error", "src/parser/expression/mod.rs: parse_repeat"]}
{"id": "C22", "title": "add and merge obey map laws", "statement": "After add(n, e), name n maps to e and all other names are unchanged. merge(a, b) maps every name of a as in a and every other name as in b: rules already present win. merge is associative, has the empty set as identity, and keeps each name at most once; rules!{..} keeps the last definition of a repeated name.", "quantifier": "all rule sets, all names, all expressions", "why_tests_cant": "Map algebra over arbitrary sets and overlaps.", "anchors": ["src/parser/expression/mod.rs: SetOfRules::add, SetOfRules::merge", "src/lib.rs: rules!"]}
{"id": "C23", "title": "Unreachable rules are irrelevant", "statement": "Adding, replacing or merging rules whose names are not reachable by references from `main` does not change the result of parse on any input.", "quantifier": "every rule set, every set of unreachable additions, every input", "why_tests_cant": "Two runs related over all inputs.", "anchors": ["src/parser/expression/mod.rs: parse_rule_name, SetOfRules"]}
{"id": "C24", "title": "prune removes exactly the named subtrees", "statement": "ast.prune(names) keeps the root and removes every Rule node below it whose name is in names, together with its subtree, and nothing else, preserving order: the result is the tree obtained by deleting those subtrees. No removed name occurs below the root; pruning is idempotent, prune(a) then prune(b) equals prune(a ++ b), and prune of no names is the identity.", "quantifier": "every AST of any depth, every list of names", "why_tests_cant": "Structural induction over unbounded trees.", "anchors": ["src/ast/mod.rs: Node::prune"]}
{"id": "C25", "title": "pass_through_except keeps only the named rules and all the leaves", "statement": "ast.pass_through_except(keep) keeps the root, keeps below it exactly the Rule nodes whose names are in keep with their nesting, and preserves the complete sequence of leaves. It is idempotent.", "quantifier": "every AST, every list of names", "why_tests_cant": "Structural induction over unbounded trees.", "anchors": ["src/ast/mod.rs: Node::pass_through_except"]}
{"id": "C26", "title": "compact merges all runs of adjacent values and nothing else", "statement": "After ast.compact() no two sibling Val nodes are adjacent anywhere; the sequence of Rule/EOF nodes and the text of each maximal run of Val siblings is unchanged; compact is idempotent.", "quantifier": "every AST", "why_tests_cant": "Arbitrary run lengths and nesting.", "anchors": ["src/ast/mod.rs: Node::compact"]}
{"id": "C27", "title": "flatten is a lossless, balanced serialisation", "statement": "ast.flatten() is a well-bracketed sequence (every BeginRule(n) closed by a matching EndRule(n), properly nested, one outermost pair for a Rule root). Read from left to right, keeping track of the open rules, it shows the nodes of the tree in document order, each with its ancestors, except EOF nodes. For trees without EOF nodes the tree can be recovered from the sequence: flatten is injective. EOF nodes are dropped.", "quantifier": "every AST", "why_tests_cant": "Injectivity is a statement about all pairs of trees.", "anchors": ["src/ast/flat.rs: Node::flatten"]}
{"id": "C28", "title": "AST post-processing preserves the parsed text", "statement": "For a successful parse of s without EOF atoms: the Val texts of ast.compact(), ast.pass_through_except(k), ast.flatten() and any composition of them still concatenate to s (with EOF atoms: to s followed by copies of \"EOF\"). On any tree at all they leave the concatenated text unchanged.", "quantifier": "every input, rule set, and every composition of these transformations", "why_tests_cant": "Composition of arbitrary length.", "anchors": ["src/ast/mod.rs", "src/ast/flat.rs"]}
{"id": "C29", "title": "AST navigation helpers consume exactly what they say", "statement": "split_first_nodes, peek_first_node, consume_val, consume_this_value, consume_node_get_subnodes_for_rule_name_is, get_nodes_unique_val, get_node_val, get_nodename_and_nodes, check_empty_nodes (tree and flat versions) return Ok iff the first node(s) have the stated form, and then the returned rest is exactly the input list without its first node; they never panic. Otherwise they return the stated error text for the case at hand (on a value other than the expected one, consume_this_value returns the text about the empty slice).", "quantifier": "every slice of nodes, every name/value", "why_tests_cant": "All list shapes.", "anchors": ["src/ast/mod.rs: split_first_nodes..peek_first_node", "src/ast/flat.rs: consume_node_start_rule_name..consume_val"]}
{"id": "C30", "title": "rules_from_peg always returns", "statement": "rules_from_peg(text) terminates for every text: the built-in PEG grammar is free of left recursion and of empty repetitions, and the conversion of its AST consumes it in finitely many steps.", "quantifier": "every text", "why_tests_cant": "Termination for all inputs.", "anchors": ["src/peg/mod.rs: rules_from_peg", "src/peg/rules.rs: parse_peg"]}
{"id": "C31", "title": "rules_from_peg does not panic on ASCII text", "statement": "rules_from_peg never panics on ASCII text (in particular the slice of \\0xHH escapes is always in range).", "quantifier": "every ASCII text", "why_tests_cant": "All inputs.", "anchors": ["src/peg/mod.rs: consume_hex_char", "src/parser/mod.rs: Error::from_status"]}
{"id": "C32", "title": "Rules built from PEG text are in normal form", "statement": "Every expression produced by rules_from_peg uses only repetitions with bounds (0,inf), (1,inf) or (0,1), sequences and choices of at least two parts, no EOF atom, and no character class without characters and ranges.", "quantifier": "every text accepted by rules_from_peg", "why_tests_cant": "Ranges over all PEG texts.", "anchors": ["src/peg/mod.rs: consume_or, consume_and, consume_rep_or_neg, consume_match"]}
{"id": "C33", "title": "Round trip: printed rules are read back exactly", "statement": "For every set of rules in normal form over printable names and literals, writing them in the documented PEG syntax and calling rules_from_peg yields Ok with exactly those rules: operator precedence (repetition/negation > sequence > choice), parentheses, literals, classes, dot, references and error(...) mean what the README says.", "quantifier": "every list of rules in normal form, any size and nesting", "why_tests_cant": "Ranges over all grammars; precedence bugs appear only in particular nestings.", "anchors": ["src/peg/mod.rs", "src/peg/rules.rs: parse_peg", "src/peg/peg2code.rs: text_peg2code"]}
{"id": "C34", "title": "Escaped literals denote any text", "statement": "For every ASCII string v, the double-quoted literal obtained by escaping backslash, quote, newline, carriage return and tab is read by rules_from_peg as the literal v; \\0xHH is read as the character with that code.", "quantifier": "every string", "why_tests_cant": "All strings, including ones containing quotes and backslashes.", "anchors": ["src/peg/mod.rs: consume_literal_esc, consume_esc_char, consume_hex_char"]}
{"id": "C35", "title": "Single-quoted literals denote their text with every backslash doubled", "statement": "A non-empty single-quoted literal '...' is read by rules_from_peg as the literal whose characters are those between the quotes, except that every backslash appears twice; so it is verbatim exactly when it contains no backslash. The empty literal '' is accepted by the PEG grammar but rejected by rules_from_peg, while \"\" is the empty literal. (The expectation that '...' is verbatim is refuted.)", "quantifier": "every string without single quote", "why_tests_cant": "All strings.", "anchors": ["src/peg/mod.rs: consume_literal_no_esc"]}
{"id": "C36", "title": "Character classes match exactly the listed characters and ranges", "statement": "A class [cs r1-t1 ... rn-tn] matches a character c at the current position iff c is one of cs or lies between ri and ti for some i (by code point); it consumes exactly that character. Dot matches any single character, EOF only the end of input, a literal only itself.", "quantifier": "every class, every character, every text", "why_tests_cant": "All characters and ranges.", "anchors": ["src/parser/atom/mod.rs: parse_match, parse_dot, parse_eof, parse_literal"]}
{"id": "C37", "title": "Repeated definitions and modules resolve predictably", "statement": "In every accepted text, with rules and modules in any nesting, a name means what the last rule for it outside modules says, and otherwise what the first module that has it says (by the same reading inside the module). The names defined are exactly the bare names of all rules at any depth. The module prefix used in the examples (b.bs) is not applied: a reference to b.bs is reported as a missing rule.", "quantifier": "every sequence of rules and modules, any nesting", "why_tests_cant": "All sequences and nestings.", "anchors": ["src/peg/mod.rs: consume_grammar, consume_module, Context"]}
{"id": "C38", "title": "Which accepted texts compile", "statement": "A text accepted by the built-in PEG grammar compiles unless it has an empty single-quoted literal or an error(...) that is followed by further elements of its sequence; exactly in these cases rules_from_peg returns an error. (The expectation that every accepted text compiles is refuted.)", "quantifier": "every text", "why_tests_cant": "All derivations of the PEG grammar.", "anchors": ["src/peg/mod.rs: rules_from_flat_ast, consume_*"]}
{"id": "C39", "title": "Syntax errors of PEG text are the parser's errors", "statement": "rules_from_peg(text) returns Error::Parser(e) iff parsing text with the built-in grammar returns Err(e), with that e.", "quantifier": "every text", "why_tests_cant": "All texts.", "anchors": ["src/peg/mod.rs: rules_from_peg"]}
{"id": "C40", "title": "Generated code lists every rule exactly once", "statement": "rust_from_rules(rules) is, for some order of the entries, the concatenation of one `r#\"name\"# => code` entry per rule, separated by commas with no leading or trailing comma, and the code of each expression is exactly the macro calls described in Spec/CodeText.lean: the four escapes in literals and messages, everything else as it is, arguments separated by `, `.", "quantifier": "every set of rules, every hash iteration order", "why_tests_cant": "HashMap order is random.", "anchors": ["src/peg/gcode.rs:49-129 rust_from_rules, rule2code, expr2code, atom2code, match_rules2code, repeat2code"]}
{"id": "C41", "title": "Generated string literals denote the text unless it has a backslash", "statement": "The Rust string literal emitted by rust_from_rules for a literal or error atom denotes the atom's text exactly when the text has no backslash. (Expected for every text; refuted: backslashes are not escaped, so the code for the two characters \\n denotes a line feed.)", "quantifier": "every string", "why_tests_cant": "All strings.", "anchors": ["src/peg/gcode.rs: atom2code"]}
{"id": "C42", "title": "Self-hosting: the checked-in PEG table is what the generator produces", "statement": "Compiling the PEG grammar of PEG (peg2code) with rules_from_peg succeeds, and the code generated from the result is, rule by rule, the source text of the table in peg/rules.rs; read as Rust, this code builds exactly the rules of parse_peg(), for every hash iteration order. The compiled rules themselves differ from parse_peg() in the rules with backslashes (single quotes double them), so they do not accept e.g. an escaped quote.", "quantifier": "the single built-in grammar; all hash iteration orders", "why_tests_cant": "The repository has no such test and the table is pasted by hand.", "anchors": ["src/peg/peg2code.rs: text_peg2code", "src/peg/rules.rs: parse_peg", "src/peg/gcode.rs"]}
{"id": "C44", "title": "The generated code builds the rules it was generated from", "statement": "Given to rules!, the code emitted by rust_from_rules is read in exactly one way and builds a set of rules mapping every name to the same expression, provided literals have no backslash, every class has a range whose ends are ordinary characters (not quote, backslash, newline, return, tab), class characters and names contain no \"# and no carriage return, and there is no EOF atom. The conditions are exact: for an expression, or a list of rules in the order the map is visited, that violates any of them anywhere, the emitted code does not evaluate to it. (Refuted outside these conditions: a class without ranges is emitted without the comma ematch! requires; eof!() is emitted although no such macro exists.)", "quantifier": "all sets of rules with unique names satisfying the conditions, all iteration orders of the map", "why_tests_cant": "The repo only compares a few generated strings; nothing compiles generated code for arbitrary rules or map iteration orders.", "anchors": ["src/peg/gcode.rs:49-129", "src/lib.rs:138-444"]}
{"id": "C43", "title": "A line comment swallows the end of line a rule needs", "statement": "Every rule must be followed, after spaces and comments, by an end of line of its own. A rule whose line ends with a // comment, directly followed by the next definition or by the end of the text, makes rules_from_peg return a syntax error, as does a last rule without end of line. (README says that such a comment can stand at the end of a rule's line.)", "quantifier": "every text of rules and modules before and after, every rule, every comment", "why_tests_cant": "The repository's tests always have a blank line there; the claim ranges over all contexts.", "anchors": ["src/peg/rules.rs: rule, _eol, line_comment", "README.md:653-659"]}
{"id": "C45", "title": "rules_from_peg implements exactly the documented concrete syntax", "statement": "The built-in grammar accepts an ASCII text exactly if it is the text of a document of the concrete syntax (blanks, comments, literals, classes, references, parentheses, repetitions, negation, sequences, error(...), alternatives, rules, modules). rules_from_peg succeeds with a mapping m exactly on the ASCII texts of documents that denote m; documents without meaning give an error.", "quantifier": "every text, every document of any size and nesting", "why_tests_cant": "Ranges over all texts, in both directions: nothing else is accepted and nothing is read differently.", "anchors": ["src/peg/mod.rs", "src/peg/rules.rs: parse_peg"]}
{"id": "C46", "title": "The PEG notation is unambiguous", "statement": "Two documents of the concrete syntax with the same ASCII text denote the same rules.", "quantifier": "every pair of documents", "why_tests_cant": "All pairs of derivations.", "anchors": ["src/peg/rules.rs: parse_peg"]}
{"id": "C47", "title": "parse answers exactly as the reporting semantics prescribes", "statement": "The reporting semantics refines the PEG semantics: it says, for each construct, which fault is reported, at which point of the text, with which priority, and what is remembered. For every string s: parse(s, rules) returns Ok(t) iff s is ASCII and the semantics accepts s with t; it panics iff the semantics raises a fault, even one that is recovered from, at a point where the byte range of line_before does not delimit characters; otherwise it returns Err(e) iff the semantics rejects s with a fault that e describes in all of its fields: pos, descr, line_before, line_after, parsing_rules, priority. The same holds for parse_debug, with the names of the rules entered. The semantics prescribes at most one answer, and on ASCII text never a panic.", "quantifier": "every set of rules, every input, every error value, every tree", "why_tests_cant": "All error values for all grammars and texts; requires the exact interplay of backtracking, deepest-error selection, remembered errors and traces.", "anchors": ["src/lib.rs: parse, parse_debug, parse_with_debug", "src/parser/mod.rs: Error::from_status", "src/parser/atom/mod.rs: parse_literal, parse_match, parse_dot, parse_eof, parse_error", "src/parser/expression/mod.rs: parse_or, parse_repeat, parse_not, parse_rule_name"]}
{"id": "C48", "title": "Every error of rules_from_peg, in full", "statement": "For every text s, rules_from_peg(s) returns Err(e) exactly if either e wraps the error that the reporting semantics of the built-in grammar prescribes for s, or s is the ASCII text of a document with a fault and e is the complaint about the first fault in reading order: an ast::Error with the cause (an empty single-quoted literal, or an error(...) followed by more elements of its sequence) wrapped once for each construct around it, from the outside in. A document has a fault exactly if it has no meaning. Displaying the complaint gives the constructs separated by ' > ' and then the cause. rules_from_peg panics exactly if the reporting semantics of the built-in grammar does.", "quantifier": "every text, every error value, every document", "why_tests_cant": "All texts, all positions and nestings of a fault; the whole error value.", "anchors": ["src/peg/mod.rs: rules_from_peg, rules_from_flat_ast, consume_*, push_err!, Error::ipush, Display for Error"]}
{"id": "C49", "title": "Rewritings of a grammar that cannot be observed", "statement": "Rewriting any number of expressions of any rules by these laws changes no answer of parse or parse_debug: not the tree, not a single field of an error (nor its rule trace), not whether it panics or never returns. Laws: a nested sequence or choice is its parts in place; a sequence or choice of one is that one; 'a / a' is 'a'; 'a b / a c' is 'a (b / c)'; 'a / (nothing)' followed by alternatives ignores them; what follows error(...) or a part that cannot fail is irrelevant; 'e{n+1,m+1}' is 'e e{n,m}'; 'e{1,1}' is 'e'; '(a+)*', '(a*)?', '(a+)?', 'a* a*', 'a* a?' and 'a? a*' are 'a*'; '!a !a' is '!a'; 'a / !a b' is 'a / b'. The laws stop there: 'a?' and 'a / (nothing)' accept the same texts but report different errors, 'a c / b c' and '(a / b) c' accept different texts, and a choice without alternatives cannot be left out of a choice.", "quantifier": "every rule set, every text, every number and place of rewritings", "why_tests_cant": "All grammars, all rewritings in all contexts and all texts, whole answers.", "anchors": ["src/parser/expression/mod.rs: parse_expr, parse_and, parse_or, parse_repeat, get_deep_error", "src/lib.rs: parse, parse_debug"]}
{"id": "C50", "title": "Rewritings of a grammar that keep the trees", "statement": "Rewriting expressions by the laws of C49 or by 'a? = a / (nothing)', 'a* = a a* / (nothing)', '!!!a = !a', leaving out of a choice an alternative that cannot match after an earlier one (the same one, one that begins with it, a literal that begins with an earlier literal, a choice without alternatives), and splitting a character class into a choice (an empty class into a choice without alternatives), keeps the accepted texts and their trees. On ASCII texts it also keeps which texts are refused, on which ones parse never returns, and every critical error (error(...), missing rule) with all its fields.", "quantifier": "every rule set, every text, every number and place of rewritings", "why_tests_cant": "All grammars, all rewritings in all contexts and all texts.", "anchors": ["src/parser/expression/mod.rs: parse_expr, parse_and, parse_or, parse_not, parse_repeat", "src/parser/atom/mod.rs: parse_match, parse_literal", "src/lib.rs: parse, parse_debug"]}
{"id": "C51", "title": "Printed errors, trees and rules", "statement": "The texts of {:?} and {:#?} determine what is printed: trees, flat trees, expressions, rule sets (with their rules in the same order) and errors of the tree helpers with equal texts are equal, errors of the parser with equal texts have the same position, description text, lines, rule trace and priority, and errors of rules_from_peg the same layers. The description text determines the description unless it was written in an error(...); so errors of parse with equal texts are equal as long as no error(...) begins with 'Missing rule: ', and refusals of rules_from_peg that are displayed ({}) equally are equal. Quoted texts are Rust string literals of the texts; printable ASCII without quotes and backslashes is quoted verbatim, and every other character as documented. The description texts and the one-line texts of trees, flat trees, expressions, rule sets and errors are as documented, and the text of {:#?} is, line by line, the nested layout with four spaces per level.", "quantifier": "every tree, flat tree, rule set, error, every version of the formatter, every text given to parse or rules_from_peg", "why_tests_cant": "Pairs of arbitrary values (any strings inside, any depth) and of arbitrary runs; a test compares a few texts.", "anchors": ["src/parser/mod.rs: Error, Possition, ErrPriority (derive Debug)", "src/parser/atom/mod.rs: Atom, MatchRules, error descriptions", "src/parser/expression/mod.rs: SetOfRules, Expression, RepInfo", "src/ast/mod.rs: Node, Error", "src/ast/flat.rs: Node", "src/peg/mod.rs: Error, Display for Error"]}
{"id": "C52", "title": "Depth of recursion", "statement": "With a grammar without left recursion the calls of parse_expr that are in progress at the same time never number more than (length of the text + 1) x (number of rules) x (height of the highest rule), also when parse does not return; without any recursion the length of the text does not matter. The bound is attained: main = \"a\" main / \"a\" nests exactly 3(n+1) calls on n letters, so a text that is long enough exhausts any stack. When parse does not return there are two cases: without empty unbounded repetitions it nests deeper and deeper (stack overflow); without left recursion it loops for ever within a bounded stack.", "quantifier": "every rule set, every text, every moment of the run", "why_tests_cant": "All grammars and texts, at every moment of runs that may be endless.", "anchors": ["src/parser/expression/mod.rs: parse_expr, parse_rule_name, parse_and, parse_or, parse_not, parse_repeat", "src/lib.rs: parse"]}
{"id": "C53", "title": "Number of steps", "statement": "A parse that returns makes a definite number of calls of parse_expr, exactly that of a matcher without memory (Spec/Effort.lean). It is at most exponential in the depth of C52, hence for a well-formed grammar bounded by a function of the rules and the length of the text alone, and polynomial in the length if there is no recursion. No result is remembered: main = \"(\" main \")\" / \"(\" main \"]\" / \"a\" accepts texts of 2n+1 characters only after 2^n calls; with the alternatives factored, main = \"(\" main (\")\" / \"]\") / \"a\", it is 7n+4.", "quantifier": "every rule set, every text", "why_tests_cant": "A bound on the steps of all runs; tests time a few.", "anchors": ["src/parser/expression/mod.rs: parse_expr, parse_rule_name, parse_and, parse_or, parse_not, parse_repeat", "src/lib.rs: parse"]}
{"id": "C54", "title": "Names of rules", "statement": "The names of rules other than main are arbitrary. When the rules that main leads to are given other names, in their definitions and in all references, parse and parse_debug answer as before, with the new names in place of the old ones: in the tree, in the description of a missing rule and in the trace of rules; nothing else of the answer changes. Two rules may even get the same name if their bodies become equal, so duplicate rules can be merged. With different names for different rules the old tree is determined by the new one. Giving main another name, or one name to two different rules, does change the answers.", "quantifier": "every rule set, every renaming, every text", "why_tests_cant": "All rule sets and all renamings; a test renames a few rules in a few grammars.", "anchors": ["src/parser/expression/mod.rs: parse_rule_name, parse_expr", "src/parser/mod.rs: Status::push_rule, Error::from_status", "src/lib.rs: parse, parse_debug"]}
{"id": "C55", "title": "Inlining and extracting rules", "statement": "In any places of any rules the name of a rule may be replaced by its body, or an expression by the name of a rule with that body. parse then accepts the same texts, gives the same errors with all their fields, and panics or loops on the same texts. The trees differ only in the nodes of the rules so treated: they are equal after pass_through_except with any list that has none of these rules. parse_debug does show the difference, in the trace of rules.", "quantifier": "every pair of rule sets so related, every text", "why_tests_cant": "All rule sets, all sets of inlined or extracted rules (also recursive ones), all texts.", "anchors": ["src/parser/expression/mod.rs: parse_rule_name, parse_expr, parse_and, parse_or, parse_repeat", "src/ast/mod.rs: pass_through_except", "src/lib.rs: parse"]}
{"id": "C56", "title": "Order of post-processing", "statement": "prune, pass_through_except and compact obey these laws. Two prunings commute. Two rounds of pass_through_except leave the rules named both times. Pruning after pass_through_except equals pruning the kept ones of the names before it; so they commute if only kept rules are pruned, and not in general. Compacting before another step is superfluous if the result is compacted. Hence whatever sequence of these steps is applied, if the tree is compacted in the end, it equals one pruning, at most one pass_through_except, and compact.", "quantifier": "every AST, all lists of names, every sequence of steps", "why_tests_cant": "All trees and all sequences of steps.", "anchors": ["src/ast/mod.rs: prune, pass_through_except, compact"]}
{"id": "C57", "title": "Layout of PEG texts", "statement": "Blanks and comments between the tokens of a PEG text do not matter: two ASCII texts of the concrete syntax with the same tokens get the same answer from rules_from_peg, the same set of rules or the same error value. In particular every accepted text gets the same answer written with one token per line, and blanks and comments can be put before and after it. (Between the elements of a sequence some blank is required: 'a''b' is a syntax error.)", "quantifier": "every pair of documents with the same tokens, every accepted text, all blanks and comments", "why_tests_cant": "All documents and all ways to lay them out.", "anchors": ["src/peg/rules.rs: rules _, _1, _eol, comment", "src/peg/peg2code.rs"]}
{"id": "C58", "title": "One PEG text after another", "statement": "If two texts are accepted by rules_from_peg so is their concatenation. In it a name means what the last rule of the second text for it outside modules says, otherwise what it means in the first text, otherwise what it means in the second. So without modules in the second text the result is the merge of the second set of rules with the first; texts that define no common name can be put in any order; and a text put into a module means the same. If both are accepted by the built-in grammar and the first is complained about, the complaint about the concatenation is the same; if only the second is complained about, it is that complaint. (A text that is rejected by itself can continue the last rule of an accepted text: / 'b' after main = 'a'.)", "quantifier": "every pair of accepted texts", "why_tests_cant": "All pairs of texts.", "anchors": ["src/peg/mod.rs:246-311 consume_grammar, rec_consume_rules_or_modules, consume_module", "src/parser/expression/mod.rs:70-110 add, merge"]}
{"id": "C59", "title": "Numbers of the machine", "statement": "On a text shorter than usize::MAX, with rules whose repetition maxima are usize, a run of parse or parse_debug that returns when counting with unlimited numbers never overflows: with the usize of a machine of any width, whether x + 1 panics or wraps on overflow, the answer is the same (Ok, Err with all fields, or panic). With overflow checks the answer of any run is the same or a panic. So well-formed rules, and rules_from_peg, never overflow. Without overflow checks a repetition that never ends does end if its maximum is 0: main = \"\"{0,0} returns after usize::MAX + 1 iterations.", "quantifier": "every text, every set of rules, every width of usize, both overflow behaviours", "why_tests_cant": "Counters near usize::MAX need 2^64 iterations; all texts and rules.", "anchors": ["src/parser/atom/mod.rs:172-193 get_char", "src/parser/expression/mod.rs:296-327 parse_repeat"]}
{"id": "C60", "title": "The grammars of the README do what it says", "statement": "rules_from_peg accepts the grammars of README.md listed here, and on all texts: the basic example accepts exactly a letter followed by one or more letters and digits; the second example exactly abcc, abcdd, abcd and abcz; the calculator exactly the arithmetic expressions (an independent context-free grammar of sums of products of numerals and parenthesised sums) with spaces around them, which are unambiguous; 'hello' / 'hello world' / 'hola' exactly hello and hola; (!'a' .)* 'a' exactly the ASCII texts whose only a is the last character; the grammar with error(\"unbalanced parenthesis\") exactly hello in balanced parentheses, and it reports that message, Critical, at the place of a missing parenthesis, and no Critical error for other texts; the first two grammars about priority have the same rules and the third accepts a different language. The trees are given too (for the accepting cases of the basic example, the calculator, the choice, the negation and the parentheses).", "quantifier": "every text, for the fixed grammars of README.md", "why_tests_cant": "The README asserts a few texts; this is the exact language and tree for all texts.", "anchors": ["README.md:95-116", "README.md:260-290", "README.md:414-441", "README.md:574-586", "README.md:642-648", "README.md:745-775", "README.md:806-825", "src/peg/mod.rs:191-196 rules_from_peg", "src/lib.rs parse"]}
{"id": "C61", "title": "The tree that the calculator of the README prints", "statement": "For every text the calculator of README.md accepts, the tree it prints, ast.compact().prune([\"_\"]).pass_through_except([\"main\", \"add_t\", \"fact_t\"]), is the sum of products of numerals and parenthesised sums that is written: an add_t per product, a fact_t per factor, operators and parentheses as values, each numeral one value, no other rule. Every such sum is accepted and shown so. Two accepted texts are shown alike exactly if they are the same apart from spaces, and an accepted text is also accepted without its spaces.", "quantifier": "every text, for the calculator of README.md", "why_tests_cant": "The README shows one expression; this is the tree of every expression and every spacing.", "anchors": ["README.md:402-460", "src/ast/mod.rs:70-208 prune, pass_through_except, compact", "src/lib.rs parse"]}
{"id": "C62", "title": "Rules added at execution time", "statement": "Adding rules changes the answer of parse or parse_debug on a text only if the answer was the critical error about a rule that is missing (or a panic), provided that every rule a negation leads to was there already. So accepted texts stay accepted with the same tree and other errors stay as they are, with all fields. The condition is needed: a negation takes a missing rule for a mismatch. The example of README.md: without the rule no text is accepted and every ASCII text that begins with a is refused because the rule is missing, at the place where it is needed; with the rule added exactly one to five a followed by bcd are accepted; merge gives the same answers as add.", "quantifier": "every pair of rule sets one of which contains the other, every text", "why_tests_cant": "All extensions of all rule sets and all texts.", "anchors": ["README.md:360-400", "src/parser/expression/mod.rs:70-110 add, merge", "src/parser/expression/mod.rs:179-207 parse_rule_name", "src/parser/expression/mod.rs:288-293 parse_not"]}
{"id": "C63", "title": "The rules as a context-free grammar", "statement": "Whatever the rules, the tree of an accepted text is a derivation of that text in the rules read as a context-free grammar, where a choice is any of its alternatives. The converse fails in general (main = 'a' / 'ab' derives ab and does not accept it), but for rules without left recursion, !, error(...) and missing rules that are LL(1) it holds: the accepted texts are exactly the derived ASCII texts, the tree is the derivation, the derivation is unique, every other ASCII text is an error, and the order of the alternatives does not matter. Example: the rules main = ('(' main ')')* accept exactly the texts of balanced parentheses.", "quantifier": "every rule set (for the converse: every well-formed plain LL(1) one), every text", "why_tests_cant": "All grammars and all texts; the language of a recursive grammar is infinite.", "anchors": ["src/parser/expression/mod.rs:231-286 parse_and, parse_or", "src/parser/expression/mod.rs:296-330 parse_repeat", "src/lib.rs:486-494 parse"]}
{"id": "C64", "title": "The examples of README.md for each kind of rule", "statement": "The grammars of README.md:495-866 (literals, escapes and hex codes, quotes, concatenation, references, choices and parentheses on one or several lines, options, 'consume till', recursion, matching parentheses) are read by rules_from_peg and accept exactly the texts described here, with these trees; variants written on several lines give the same rules; a literal split in parts gives the same compacted tree; one literal, whatever it is, accepts exactly the text it denotes; (!'l' .)* 'l' accepts, for every l, exactly the texts whose only occurrence of l is at the end. Four examples do not work as written: the one for repetitions refers to rules it does not define, so every text gets the error of the missing rule at its start; the line comment does not end at the end of the line, because '\\n' between single quotes is not an end of line; and two grammars (README.md:666-671, 858-866) are syntax errors.", "quantifier": "every text, for each of the grammars; every literal for the general ones", "why_tests_cant": "That nothing else is accepted is about all texts; the languages with recursion and repetition are infinite.", "anchors": ["README.md:490-866", "src/peg/mod.rs:191-196 rules_from_peg", "src/lib.rs:486-494 parse"]}
{"id": "C65", "title": "The program of the crate prints src/peg/rules.rs", "statement": "main() does not panic. It prints the entries of the table of src/peg/rules.rs, one on each line with commas between them, in some order (the order of a hash map); every order is possible and nothing else is printed. The text that is now between the parentheses of rules!( ... ) in src/peg/rules.rs is such an output. Pasting any output there, as the comment asks, gives source that is read in exactly one way and builds the rules of parse_peg().", "quantifier": "every run of the program, every order of the hash map, any blanks after the pasted text", "why_tests_cant": "The order of a hash map changes from run to run: 33! orders; a test sees one of them.", "anchors": ["src/main.rs:4-6 main", "src/peg/peg2code.rs:114-127 print_rules2parse_peg", "src/peg/rules.rs:3-39 parse_peg"]}
{"id": "C66", "title": "Comparing trees, flat trees, errors, positions and priorities", "statement": "== of ast::Node, Vec<flat::Node>, ast::Error and Possition is equality, and holds exactly if {:?} (or {:#?}) prints the same. parse makes no Node::EOF, whatever the rules, so two trees of parse are == exactly if their flat trees are (which is false for trees with EOF nodes); == trees come from the same text if there is no EOF in the rules. ErrPriority: Normal < Critical, and ==, cmp, partial_cmp, max and min agree with this order. NRep is displayed as a decimal literal of its number.", "quantifier": "all trees, flat trees, errors, positions; every text and rule set for the trees of parse", "why_tests_cant": "The tests of the crate use == to compare results; that it tells apart everything that differs is about all pairs of values.", "anchors": ["src/ast/mod.rs:18 derive PartialEq for Error", "src/ast/mod.rs:36 derive PartialEq for Node", "src/ast/flat.rs:25 derive PartialEq for flat::Node", "src/parser/mod.rs:32 derive PartialEq for Possition", "src/parser/mod.rs:56 derive for ErrPriority", "src/parser/expression/mod.rs:156-160 Display for NRep"]}
{"id": "C67", "title": "LL(1) rules are parsed in linear time", "statement": "For rules without left recursion, empty repetitions, !, error(...), missing rules and parts that derive no text, that are LL(1), there is a constant K such that parse calls parse_expr at most K * (length + 1) times on every ASCII text, accepted or not. (In general the number is exponential, C53.) Without the condition on useless parts this is false: main = 'a' main / 'a' main derives nothing, so it is LL(1), and takes more than 2^n calls to refuse n letters a.", "quantifier": "every well-formed plain productive LL(1) rule set, every ASCII text", "why_tests_cant": "A bound for all texts of all such grammars; refused texts are the hard case, since the parser tries the alternatives after the one that went wrong.", "anchors": ["src/parser/expression/mod.rs:231-286 parse_and, parse_or", "src/parser/expression/mod.rs:296-330 parse_repeat", "src/lib.rs:486-494 parse"]}
{"id": "C68", "title": "What comes before the place of an error can be completed", "statement": "For rules without error(...), missing rules and parts that derive no text, if parse(s, rules) is an error at character n, then the first n-1 characters of s are the beginning of a text that the rules derive, read as a context-free grammar (a wrong character is reported at the place after it). If the rules are also LL(1) (C63), plain and well-formed, and their parts derive ASCII texts, then they are the beginning of a text that is accepted; so if no accepted text begins with the first k characters of s, then n <= k: the error does not point beyond the first wrong character. It can point before it: with main = ('a' 'b')* 'c' the error of 'abax' is at 3 although 'aba' begins the accepted text 'ababc'. With useless parts nothing of this holds.", "quantifier": "every productive rule set (LL(1) for the second part), every text", "why_tests_cant": "It relates the place of every error, chosen among the alternatives and the error a repetition kept, to the set of all texts the rules accept.", "anchors": ["src/parser/expression/mod.rs:231-328 parse_and, parse_or, parse_repeat", "src/parser/atom/mod.rs parse_literal, parse_match", "src/lib.rs:486-530 parse, parse_with_debug"]}
{"id": "C69", "title": "Without recursion, the nesting of the repetitions is the exponent of the work", "statement": "If the rules are well-formed and at most d unbounded repetitions are inside of one another, counting those of the rules that are called (none of which is recursive), then there is a constant K such that parse calls parse_expr at most K * (length + 1)^d times on every ASCII text; without unbounded repetitions the work does not depend on the text. Rules that are not recursive have such a d. The exponent is the right one: for every d there is a well-formed rule of that nesting that takes at least n over d calls on n letters a.", "quantifier": "every well-formed rule set with non-recursive main, every ASCII text; every d and n for the lower bound", "why_tests_cant": "A bound for all texts and all rule sets, and a lower bound for every exponent.", "anchors": ["src/parser/expression/mod.rs:231-286 parse_and, parse_or", "src/parser/expression/mod.rs:296-330 parse_repeat", "src/lib.rs:486-494 parse"]}
{"id": "C70", "title": "Rewritings of a grammar that keep the trees up to compact", "statement": "Cutting literals in pieces or joining them ('ab' is 'a' 'b'), anywhere in any rules and together with the laws of C49 and C50, keeps the accepted texts, and the trees are equal after compact; so are the results of any sequence of prune, pass_through_except and compact that ends with compact. On ASCII texts it keeps which texts are refused, on which ones parse never returns, and every critical error with all its fields. Together with the inlining or extraction of rules (C55) the trees are equal after pass_through_except and compact. For instance 'abc' / 'abd' may be written 'ab' ('c' / 'd'). Without compact the trees differ, and so may the ordinary errors.", "quantifier": "every rule set, every text, every number and place of rewritings, every sequence of post-processing steps", "why_tests_cant": "All grammars, all rewritings in all contexts, all texts and all post-processing sequences.", "anchors": ["src/parser/atom/mod.rs: parse_literal", "src/parser/expression/mod.rs: parse_expr, parse_and, parse_or, parse_not, parse_repeat", "src/ast/mod.rs: compact, prune, pass_through_except", "src/lib.rs: parse"]}
{"id": "C71", "title": "Reading a PEG text takes at most quadratic work", "statement": "When rules_from_peg parses a PEG text of n ASCII characters with the built-in rules, the calls of parse_expr number at most K (n + 1)^2 for a fixed K, whether the text is accepted or refused, although the rules are recursive and their alternatives begin alike. The calls nest at most 264 (n + 1) deep, and n + 1 opening parentheses at the start of a right-hand side nest them more than 13 n deep whatever follows, so a text can exhaust any stack. No linear bound on their number holds: for each m there is a text of 3 m + 10 characters that rules_from_peg accepts and that takes at least m^2 calls.", "quantifier": "every ASCII text, of any length, accepted or refused; every m", "why_tests_cant": "The bound is about all texts of all lengths; a test can time some texts but cannot exclude that another one takes exponentially long.", "anchors": ["src/peg/rules.rs: parse_peg", "src/peg/mod.rs: rules_from_peg", "src/parser/expression/mod.rs: parse_expr, parse_and, parse_or, parse_not, parse_repeat", "src/lib.rs: parse"]}
{"id": "C72", "title": "The accepted sets of texts are closed under intersection, complement and, for rules without error(), union", "statement": "From any two sets of rules A and B, by putting an l or an r before the names of their rules, merge and add, one gets sets of rules: main = !(!(lmain !.)) rmain accepts exactly the texts that both accept, with the tree of B; main = lmain !. / rmain accepts the texts that A accepts and those that A refuses with an ordinary error and B accepts, with the tree of the one that accepts; main = !(lmain !.) .* accepts exactly the ASCII texts that A refuses, refuses those it accepts, and fails to return exactly when A does. Where A and B return, so do the first two.", "quantifier": "every pair of rule sets, every text", "why_tests_cant": "All grammars and all texts.", "anchors": ["src/parser/expression/mod.rs: parse_not, parse_and, parse_or", "src/parser/expression/mod.rs: SetOfRules add, merge", "src/lib.rs: parse"]}
{"id": "C73", "title": "Every regular language is described by some rules, parsed in linear time; so is a^n b^n c^n", "statement": "For every regular language over characters there is a well-formed set of rules that accepts exactly the ASCII texts in it, and with which parse calls parse_expr at most 520 (length + 1) times on any ASCII text. The PEG text main = !(!(ab 'c')) 'a'+ bc, ab = 'a' ab? 'b', bc = 'b' bc? 'c' is read by rules_from_peg, and its rules accept exactly the texts of n letters a, n letters b and n letters c, n >= 1.", "quantifier": "every regular language, every text", "why_tests_cant": "All finite automata and all texts.", "anchors": ["src/parser/expression/mod.rs: parse_expr, parse_and, parse_or, parse_not", "src/parser/atom/mod.rs: parse_literal, parse_dot", "src/lib.rs: parse"]}
{"id": "C74", "title": "Characters matter only through the literals and classes of the rules", "statement": "Put other characters in place of the characters of a text and change the atoms of the rules accordingly: parse and parse_debug answer as before, with the new characters in the leaves and in the line shown and the new atoms in the description; positions, rules, priorities and everything else stay, and so do panics and non-termination. In particular two characters that no literal mentions and that belong to the same classes can be put in place of one another at any single place: the text is accepted as before with a tree of the same form, or refused at the same position with the same description. The characters must be equally many bytes long and ends of lines must stay; both conditions are needed.", "quantifier": "every rule set, every text, every change of characters", "why_tests_cant": "All rule sets, texts and replacements of characters; it says which texts need not be tested.", "anchors": ["src/parser/atom/mod.rs: parse_literal, parse_match, parse_dot, parse_eof, get_char", "src/parser/mod.rs: Error::from_status", "src/parser/expression/mod.rs: parse_expr", "src/lib.rs: parse, parse_debug"]}
{"id": "C75", "title": "Whether rules accept anything, and whether they always return, is as hard as halting", "statement": "From the program of a machine with two counters one computes (machineRules) a set of rules that accepts exactly the text of the machine's history from any value of the first counter, and zero in the second, until it halts; so it accepts some text if and only if the machine halts, and parse returns with it on every ASCII text. With a left-recursive rule after it, parse returns on every ASCII text if and only if the machine does not halt. So no check of rules can tell exactly which ones accept some text, or with which ones parse always returns; the condition of C12 is sufficient and cannot be made exact. (C78: halting of such machines is undecidable.)", "quantifier": "every two-counter program, every initial value of the first counter, every text", "why_tests_cant": "It is about all rule sets and all texts, and says what no test or static check can establish.", "anchors": ["src/parser/expression/mod.rs: parse_expr, parse_and, parse_or, parse_not, parse_repeat, parse_rule_name", "src/lib.rs: parse"]}
{"id": "C76", "title": "The tree is at most proportional to the text", "statement": "For every set of rules there is a factor K such that every tree that parse returns has at most K times (length of the text + 1) nodes, even when finding it takes exponentially many steps (C53). No tree is deeper than (number of rules) × (length of the text + 1), not counting the leaf, and this depth is attained. The rules need not be well-formed. The factor depends on the rules: n nested repetitions give a tree of more than 2^n nodes for the empty text.", "quantifier": "every set of rules, every text", "why_tests_cant": "It bounds the size of every tree for every grammar and every length of text; tests see finitely many trees.", "anchors": ["src/lib.rs: parse", "src/parser/expression/mod.rs: parse_expr, parse_and, parse_or, parse_repeat, parse_rule_name", "src/ast/mod.rs: Node"]}
{"id": "C77", "title": "Recursion in last position only: exactly the regular languages", "statement": "If the rules that main leads to can be given levels such that a rule calls rules of its own level only in last position, and otherwise only rules of lower levels (in particular if they are not recursive), the texts they accept are a regular language; so are the ASCII texts that end in a Critical error, and the ASCII texts on which parse does not return. Conversely every regular language of ASCII texts is accepted by such rules. So a check that opening and closing parentheses are equally many, as in the README, needs a rule that calls itself before the end.", "quantifier": "every set of rules with recursion in last position only, every text; every regular language", "why_tests_cant": "It is about the whole language of every grammar of a class, including lookahead, ordered choice and error().", "anchors": ["src/lib.rs: parse", "src/parser/expression/mod.rs: parse_expr, parse_and, parse_or, parse_not, parse_repeat, parse_rule_name"]}
{"id": "C78", "title": "What cannot be computed from a PEG text", "statement": "There is no algorithm that decides, given a PEG text, whether the rules that rules_from_peg reads from it accept any text at all. No procedure even lists the PEG texts whose rules accept nothing, nor those with whose rules parse returns on every ASCII text, nor the pairs of PEG texts whose rules accept the same texts. So every computable check that lets through only PEG texts with which parse always returns (C12 is one) rejects some with which it always returns. Computability is Mathlib's (ComputablePred, REPred); texts are given as lists of the numbers of their characters.", "quantifier": "every algorithm (partial recursive function) on PEG texts", "why_tests_cant": "It is about all algorithms, all grammars and all inputs; a test or a static check can only approximate what is asked here.", "anchors": ["src/lib.rs: parse", "src/peg/mod.rs: rules_from_peg", "src/parser/expression/mod.rs: parse_expr"]}
{"id": "C79", "title": "The rules listed by parse_debug are those of the tree under construction", "statement": "When parse_debug(s, rules) returns Err(e), e.parsing_rules lists the rules of the tree that was under construction: the rules entered and not left, from main on, each followed by the complete ones that it has called so far, in the order in which they were entered. Rules of failed alternatives and of lookaheads are not listed, rules that have been left are. The complete nodes spell the text from its beginning up to a place from which e.pos is no further away than the failing literal or class has read (followed by copies of \"EOF\" only if nothing is left). For every set of rules the length of the list is at most K times (length of the text + 1); it does grow with the text: main = x* \"b\", x = \"a\" lists n + 1 rules on n letters.", "quantifier": "every set of rules, every text, every error of parse_debug", "why_tests_cant": "Any nesting of choices, repetitions, lookaheads and calls may have been given up or completed before the error.", "anchors": ["src/lib.rs: parse_debug, parse_with_debug", "src/parser/mod.rs: Status::push_rule, Error::from_status", "src/parser/expression/mod.rs: parse_rule_name, parse_and, parse_or, parse_not, parse_repeat"]}
{"id": "C80", "title": "When parse returns on a given text, and how to tell", "statement": "On an ASCII text parse(s, rules) does not return exactly if matching main comes to a rule that, possibly through others, calls itself again at the same place, or to an unbounded repetition whose body matches there without consuming: the two causes of C13 are the only ones (on any text, ASCII or not, there is no other). If it returns, then whatever the rules are, its calls of parse_expr nest no deeper than (length of the text + 1) x (number of rules) x (height of the highest rule), and their number is at most exponential in the depth. So a parse that does not return can be told from one that does: it makes more calls than a number computed from the rules and the length of the text alone, and a parse that returns never does. Whether parse returns on a given text is therefore decidable, although whether it returns on every text is not (C78).", "quantifier": "every set of rules (left recursive, with empty repetitions, with missing rules, with any bounds), every ASCII text", "why_tests_cant": "A test cannot tell a parse that does not return from a slow one; the bound that tells them apart is over all rules and texts.", "anchors": ["src/parser/expression/mod.rs: parse_expr, parse_rule_name, parse_and, parse_or, parse_not, parse_repeat", "src/lib.rs: parse"]}
{"id": "C81", "title": "How long the calculator of README.md takes", "statement": "With the rules that rules_from_peg reads from the calculator of README.md (README.md:419-441): an arithmetic expression, or nothing, after k+1 parentheses that are not closed makes parse return Err after at least 2^(k+2) calls of parse_expr, because the second alternative of `expr` (`/ portion_expr`) repeats the work of the first. A text that is accepted takes at most 24*n+31 calls, n its length. With the line `/   portion_expr` of `expr` taken out of the text, the rules accept the same texts with the same trees, and every ASCII text, accepted or not, takes at most 41*n+30 calls.", "quantifier": "every number of parentheses, every expression of the calculator, every accepted text; for the shortened rules every ASCII text", "why_tests_cant": "The example in the README is an accepted text and fast. That accepted texts are always fast, that the alternative never contributes a tree, and that the shortened rules are fast on all texts, are statements about all texts.", "anchors": ["README.md:409-450", "src/lib.rs: parse", "src/parser/expression/mod.rs: parse_expr, parse_or, parse_and", "src/peg/mod.rs: rules_from_peg"]}
{"id": "C82", "title": "The text copied into errors", "statement": "Every attempt that fails builds an Error with a copy of its line (line_before and line_after), and every copy of the status (one for each choice, each of its alternatives, each negation and each round of a repetition) copies the line of the error it remembers. A parse that returns has copied a definite number of characters this way. The number is at most L*(3*calls+2), with L the length of the longest line and calls the number of calls of parse_expr. On an ASCII text without ends of line it is a multiple of the length n of the text: every copy is one of the whole text. So work that is linear in calls is not linear in time: with the rules of the calculator of README.md a number of n digits is accepted after at most 24*n+31 calls but at least n*n copied characters (and at most n*(72*n+95)); `main = ('a' / 'b')*` copies at least n*n characters to read n times `b`. Reading an ASCII PEG text of n characters, with lines of at most L, copies at most K*L*(n+1)^2 characters, for a fixed K.", "quantifier": "every set of rules, every text on which parse returns (ASCII or not) for the upper bound; every number of digits for the calculator", "why_tests_cant": "Tests use short texts and look at results, not at what was copied and thrown away; the bounds are over all rules and texts.", "anchors": ["src/parser/mod.rs:162-176 Error::from_status", "src/parser/mod.rs:85 Status (derive Clone)", "src/parser/expression/mod.rs:260,272,289,305 status.clone()", "src/lib.rs:513", "README.md:419-441"]}
{"id": "C83", "title": "A character that is not ASCII, where an ASCII text goes on", "statement": "Let every atom of the rules match ASCII characters only (no `.`, no other characters in literals and classes). If parse accepts u followed by some x that is not empty, then parse panics on u followed by any character that is not ASCII, whatever comes after it. For every ASCII text u, what parse (and parse_debug) gives on u followed by a character that is not ASCII does not depend on that character nor on what follows it: both panic, both never return, or both give an Error with the same pos, descr, line_before, parsing_rules and priority; only line_after differs. And compared with any other continuation of u it either panics or refuses with that same Error. For the calculator of README.md: a character that is not ASCII in place of any character of an accepted text, or behind it, makes parse panic. For rules_from_peg: the same two statements hold for the texts of grammars, as long as the part before the character does not contain both `[` and `-`; the exception is real: `main = [a-z]` is accepted and `main = [a-é]` gives an Err, not a panic.", "quantifier": "every set of rules of ASCII atoms, every ASCII text u, every continuation, every two characters that are not ASCII; for rules_from_peg every text", "why_tests_cant": "It compares runs on all texts with a common beginning, over all rules and all characters beyond ASCII; a test sees one pair of texts.", "anchors": ["src/parser/mod.rs:162-176 Error::from_status (slices by byte positions)", "src/parser/atom/mod.rs:172-190 get_char", "src/lib.rs:505-522 parse", "src/peg/mod.rs rules_from_peg", "src/peg/rules.rs:20,34 mbetween", "README.md:419-441"]}
{"id": "C84", "title": "On a call stack of limited size", "statement": "Give the parsing functions a stack of d bytes, with frames of any sizes; a call that does not fit aborts the process. (1) If the process is not aborted, the answer is that of parse, and more stack gives the same answer. (2) If parse returns, there is a number of bytes such that it is aborted with fewer and answers with as many or more; the number lies between m frames of parse_expr, where m is the depth to which its calls nest, and one frame of parse_rule_name with m times the most that lies between one parse_expr and the next. (3) If parse never returns, and no unbounded repetition has a body that can match the empty text, it is aborted whatever the stack: left recursion aborts the process, it does not hang. If it never returns without left recursion, then with enough stack it is not aborted but goes on for ever. Only left recursion overflows every stack. (4) Without left recursion, stack in proportion to the length of the text suffices; without any recursion among the rules, one size suffices for all texts. (5) For the calculator of README.md no size suffices: n parentheses around `1` are accepted, but abort the process if the stack is smaller than 9 n frames of parse_expr. Likewise `main=((...(.)...))`, which rules_from_peg reads as `main=.`, aborts it if the stack is smaller than 13 frames for each but one pair of parentheses.", "quantifier": "every set of rules, every text, all sizes of frames and of the stack, every depth n", "why_tests_cant": "It speaks about all sizes of stacks and frames, about runs that never return, and about texts of unbounded nesting; a test has one stack and one build.", "anchors": ["src/parser/expression/mod.rs:179-207 parse_rule_name", "src/parser/expression/mod.rs:219-330 parse_expr, parse_and, parse_or, parse_not, parse_repeat", "src/lib.rs:505-522 parse", "src/peg/mod.rs rules_from_peg", "README.md:419-441"]}
{"id": "C85", "title": "The calls that rules_from_peg has in progress", "statement": "After parsing, rules_from_peg reads the flat tree with functions that repeat by calling themselves, not by looping. Allow at most d of these calls to be in progress at a time. (1) If d suffices, the answer is that of rules_from_peg, and so it is for every larger d. (2) There is a K such that K(length + 1) suffices for every text. (3) If d suffices for a text that has rules, then d is more than the number of dots in any name defined, and at least 4 more than any rule reaches without nesting: part i of a sequence or choice lies i further than the sequence or choice itself, a class reaches as far as it has ranges, a name as far as it has dots, a literal as far as it has characters that do not occur in the text (which stand there as escapes). (4) If the text has no brace, d is at least 2 more than the number of rules. (5) No d suffices for all texts: `main = \"\\r\\r...\\r\"` with n escapes is read as the literal of n carriage returns, but n + 3 calls do not suffice.", "quantifier": "every PEG text, every bound d, every number n of escapes", "why_tests_cant": "It bounds the recursion for all texts from both sides; a test has one stack, and overflowing it aborts the test itself.", "anchors": ["src/peg/mod.rs:191-208 rules_from_peg, rules_from_flat_ast", "src/peg/mod.rs:270-289 rec_consume_rules_or_modules", "src/peg/mod.rs:347-365 rec_consume_dot_symbol", "src/peg/mod.rs:438-456 rec_consume_or", "src/peg/mod.rs:495-516 rec_consume_and", "src/peg/mod.rs:709-723 rec_consume_lit_esc_ch", "src/peg/mod.rs:862-876 rec_consume_mbetween"]}
{"id": "C86", "title": "The text that compact copies", "statement": "compact joins adjacent values one after the other, and copies the joined value three times for each of them (and once more in front of a node that is not a value). The number of characters copied is exactly that. So: if somewhere in the tree k values, not empty, stand side by side, at least (3k^2+k)/2 - 1 characters are copied. If the values of the tree have at most m characters, a value of l characters in the result takes at least about 3 l^2/(2m). It is never more than three times the longest value of the result for each node of the tree. For every set of rules there is a K such that for every tree of parse it is at most K(n+1)^2, n the length of the text, and the square of the longest value of the result is at most K times it (plus K). For the tree of `main = .*` on n > 0 ASCII characters, and for that of a number of n digits with the calculator of README.md (whose example compacts the tree), it is (3n^2+n)/2 - 1: building the tree is linear in nodes, compacting it is quadratic.", "quantifier": "every tree; every set of rules and every text that is accepted; every n", "why_tests_cant": "It counts the work for all trees and all lengths; a test measures the time of a few.", "anchors": ["src/ast/mod.rs:173-208 Node::compact", "src/ast/mod.rs:174-197 concat_nodes", "src/ast/mod.rs:198-202 compact_nodes"]}
{"id": "C87", "title": "The calls that the functions on trees have in progress", "statement": "prune, pass_through_except, compact and flatten call themselves (or an inner function) for the nodes below a rule. Allow at most d of these calls to be in progress at a time. prune returns exactly if d is at least the depth of its result: what it removes does not count. pass_through_except returns exactly if d is at least the depth of the tree it is given, where the root and the rules that are kept count twice and those that are dissolved once. compact returns exactly if d is at least the depth of the tree where rules count twice; flatten exactly if d is at least the depth and one more. In each case the result is the usual one. So for the trees of parse a number of calls in proportion to the length of the text suffices, whatever the rules; and no fixed number suffices: with main = 'a' main / '' the tree of n letters needs more than n + 1 calls of each.", "quantifier": "every tree, every list of names, every bound d; every set of rules and every accepted text", "why_tests_cant": "It gives the exact depth of the recursion for all trees; a test has one stack, and overflowing it aborts the test itself.", "anchors": ["src/ast/mod.rs:72-92 Node::prune", "src/ast/mod.rs:122-145 Node::pass_through_except", "src/ast/mod.rs:173-208 Node::compact", "src/ast/flat.rs:81-95 flatten"]}
{"id": "C88", "title": "What the trace of parse_debug costs", "statement": "\"It's expensive, use it just to develop and locate errors\", says the comment on parse_debug. Count the rule names that a call writes into lists: one for each rule entered, all the names of the list for each copy of a status (every choice, alternative, round of a repetition and negation makes one) and for each error built or copied. parse writes none. parse_debug makes exactly the calls of parse, and writes at most (m+1)(5m+3) names, m the number of calls of parse_expr. If it returns an error, it has written each name that the error lists at least twice. The order is reached: with main = x*, x = 'a' it accepts n letters and writes exactly (n+2)(n+7)/2 names.", "quantifier": "every text and every set of rules for which parse returns; every n", "why_tests_cant": "It counts for all texts and rules; a test measures the time of a few, and sees no difference on short ones.", "anchors": ["src/lib.rs:490-501 parse_debug", "src/lib.rs:503-521 parse_with_debug", "src/parser/mod.rs:85-102 Status", "src/parser/mod.rs:132-135 push_rule", "src/parser/mod.rs:162-176 Error::from_status", "src/parser/expression/mod.rs:179-327"]}
{"id": "C89", "title": "(!x .)* x finds the first place where x matches", "statement": "Let x be any expression, over rules that do not refer to main. On an ASCII text, parse with main = (!x .)* x .* accepts exactly if the text is u v such that v is accepted with main = x .* and every longer ending of the text is refused with it; the tree has the characters of u one by one, then what main = x .* gives for v. It is refused exactly if every ending of the text, the empty one included, is refused with main = x .*; it does not return exactly if main = x .* does not on some ending and refuses all longer ones. main = (!x .)* accepts exactly the texts whose non-empty endings are all refused (provided that x returns at the end). For a literal x: accepted exactly if it occurs in the text, and the tree is cut at its first occurrence.", "quantifier": "every set of rules without references to main, every expression x without one, every ASCII text", "why_tests_cant": "x is any expression, with lookahead, recursion or final errors in it, and the text is any text.", "anchors": ["src/parser/expression/mod.rs:288-294 parse_not", "src/parser/expression/mod.rs:296-327 parse_repeat", "src/parser/expression/mod.rs:231-247 parse_and", "src/lib.rs:503-521 parse_with_debug", "src/parser/expression/mod.rs:70-73 SetOfRules::add"]}
{"id": "C90", "title": "field (sep field)* splits every text at the separators", "statement": "Rules main = field (sep field)* and field = (!sep .)*, with a separator that is not empty, accept every ASCII text. The fields in the tree are the pieces of the text between the separators, taken from the left; put together with the separator they give the text, and none contains the separator; for a separator of one character they are what splitting at that character gives. After compact each field has its piece as its only value, or no child if the piece is empty. The text of the grammar with a comma gives these rules.", "quantifier": "every separator that is not empty, every ASCII text", "why_tests_cant": "Separators that overlap with themselves, empty pieces, separators at the ends: for all texts and all separators.", "anchors": ["src/lib.rs:486-488 parse", "src/parser/expression/mod.rs:231-327", "src/ast/mod.rs:173-208 Node::compact", "src/peg/mod.rs:191-196 rules_from_peg"]}
{"id": "C91", "title": "In generated code single-quoted literals are verbatim", "statement": "Let rules_from_peg accept a text whose double-quoted literals denote no backslash, with classes for which code can be generated (C44). The code that rust_from_rules emits for these rules is read by Rust in one way, and it builds the rules of the text in which every single-quoted literal is written between double quotes with the escapes it needs: parse gives the same results with both. So for main = 'b' the parser built from the generated code accepts exactly b, while parse with the rules themselves accepts exactly b with its backslashes doubled (C35). No way to quote it makes a literal with a backslash the same in the rules and in the generated code; the expression !'a' [\\a-a] does accept exactly the backslash in both.", "quantifier": "every accepted text with such literals and classes, modules included; every hash order; every literal; every input", "why_tests_cant": "Relates two readings of all grammar texts; a test compares the two for a few literals, usually without backslashes.", "anchors": ["src/peg/mod.rs:782-800 consume_literal_no_esc", "src/peg/gcode.rs:48-58 rust_from_rules", "src/peg/gcode.rs:89-104 atom2code", "src/lib.rs:138-444 macros"]}
{"id": "C92", "title": "What Rust reads in the code generated for literals with backslashes", "statement": "The code that rust_from_rules emits for a literal or message is a Rust expression exactly if the backslashes in its text start escapes of Rust, and then it is the literal with the escapes resolved (a line feed, return or tab after a backslash leaves the backslash and a letter). If this holds for every literal and message, and classes and names can be emitted, the code of an expression or of a set of rules is read in one way, as the expression or rules with the escapes resolved. So different rules can have the same code: \"\\n\" and \"\\\\n\" do. (Refuted without the condition: in the code of a text accepted by rules_from_peg a backslash before a quote ends the string early; Rust reads the rest of the literal and a class as code, and builds a sequence of three parts where the grammar has two.)", "quantifier": "every text of a literal or message, every expression, every list of rules in the order the map is visited", "why_tests_cant": "Covers all escapes and all positions of backslashes and quotes, and says that there is no other reading.", "anchors": ["src/peg/gcode.rs:48-58 rust_from_rules", "src/peg/gcode.rs:86-104 atom2code", "src/lib.rs:138-444 macros"]}
{"id": "C93", "title": "Rules and generated code are at most proportional to the PEG text", "statement": "Measure rules by counting every operator, atom, reference and rule, every character of literals, messages, names and classes, and the bounds of repetitions. The rules that rules_from_peg returns for a text of n characters have a size of at most 2n, and there are at most n/4 of them; no factor below 2 does, because backslashes between single quotes are doubled. The code that rust_from_rules emits for any rules has at most 25 times their size in characters, so at most 50n for the rules of a text of n characters.", "quantifier": "every accepted text; every set of rules; every order in which the map is visited", "why_tests_cant": "A bound over all texts; growth with the depth of nesting shows only on texts larger than tests use.", "anchors": ["src/peg/mod.rs:191-324 rules_from_peg, consume_grammar, consume_module", "src/peg/mod.rs:782-800 consume_literal_no_esc", "src/peg/gcode.rs:48-129 rust_from_rules"]}
{"id": "C94", "title": "Quoted strings with an escape character", "statement": "For two different ASCII characters q and b, the rules main = str*, str = q (esc / !q .)* q, esc = b . accept exactly the concatenations of quoted strings (between quotes: b with any character, or any other character than q and b), and the tree has one str for each, with an esc for every escape. Every list of texts can be written that way, b put before every q and b: parse accepts it and the texts can be read back from the tree, so no two lists are written alike. With main = str .* a quoted text ends at its own last quote, whatever it contains and whatever follows. Without the escape, q (!q .)* q accepts a text between quotes exactly if it has no quote inside. The PEG text with double quotes and backslashes gives these rules.", "quantifier": "every pair of different ASCII characters, every ASCII text, every list of ASCII texts", "why_tests_cant": "A text that breaks out of its quotes is what tests miss: escapes before quotes, several in a row, an escape at the end.", "anchors": ["src/lib.rs:486-521 parse, parse_with_debug", "src/parser/expression/mod.rs:231-328 parse_and, parse_or, parse_not, parse_repeat", "src/peg/mod.rs:191-199 rules_from_peg"]}
{"id": "C95", "title": "Trees of the crate as texts that the crate reads", "statement": "Write a tree as a text: a value and a name as quoted texts (C94), a rule as its name and its children between parentheses, the end of file as $. With the rules main = node, node = str / list / eof, list = '(' str node* ')', eof = '$' and str as in C94, parse accepts the text of every tree whose texts are ASCII, and the tree can be read from the tree that parse returns. So different trees have different texts. The rules accept exactly the quoted strings, $ and the lists of a quoted string and accepted texts, and the tree mirrors them, to any depth. The PEG text of this grammar gives these rules.", "quantifier": "every tree with ASCII texts, of any depth and width; every ASCII text", "why_tests_cant": "Recursive structure: trees of all shapes with all texts in them, parentheses and quotes included.", "anchors": ["src/ast/mod.rs:37-45 Node", "src/lib.rs:486-521 parse, parse_with_debug", "src/parser/expression/mod.rs:179-330", "src/peg/mod.rs:191-199 rules_from_peg"]}
{"id": "C96", "title": "Words and keywords", "statement": "Let [..] be any class and the keywords non-empty texts of its characters. With main = (kw / id / .)*, id = [..]+ and kw = k1 ![..] / k2 ![..] / ... parse accepts every ASCII text; the tree has, in order, a kw for each longest run of characters of the class that is a keyword, an id for every other longest run, and the other characters. The order of the keywords does not matter, nor does listing one twice. With kw = (k1 / k2 / ...) ![..] instead, a run is a kw exactly if it is listed and no keyword listed earlier begins it; for ASCII keywords the two ways agree on all ASCII texts exactly if every keyword is listed before all other keywords that begin it (its first place counts). (in, int in this order: int is then an id.)", "quantifier": "every class, every list of keywords of its characters, every ASCII text", "why_tests_cant": "All lists of keywords with all overlaps, and that all texts are scanned right.", "anchors": ["src/parser/expression/mod.rs:231-328 parse_and, parse_or, parse_not, parse_repeat", "src/parser/atom/mod.rs parse_literal, parse_match", "src/lib.rs:486-521 parse, parse_with_debug"]}
{"id": "C97", "title": "What rust_from_rules needs", "statement": "If only so many calls of the functions of gcode.rs that rust_from_rules makes (rule2code, expr2code, mexpr2code, atom2code, match_rules2code, bounds2code, repeat2code) may be in progress at a time, the number needed is exactly one more than the deepest rule needs, where sequences, choices and repetitions count two, negations one, a class with m ranges m + 4, other atoms two and references one; with as many the answer is the usual one, in every order of the entries. This is at most 2 * size + 1 of the rules and 4n + 1 for rules read from a text of n characters. The characters written into strings add up over the rules, and are at most 64 times the square of the size of the rules, 256 n^2 for rules read from a text. Both are attained up to the factor: one rule that is a class with n ranges needs more than n calls in progress, and more than 9 n^2 characters are written for it.", "quantifier": "every set of rules, every order of its entries, every accepted text, every number of calls", "why_tests_cant": "Overflow of the stack and quadratic time show only on grammars larger than those of tests, and the bound is over all of them.", "anchors": ["src/peg/gcode.rs:48-129 rust_from_rules, rule2code, expr2code, mexpr2code, atom2code, match_rules2code, bounds2code, repeat2code"]}
{"id": "C98", "title": "Binary operators of any number of levels of precedence", "statement": "Take any number of operator characters with a rule for each, n = m ('o' m)* with m the rule of the next operator, the first one called main, and at the end a = [..]+ / '(' main ')'. If the operators are different, not in the class and not ')', and the parentheses are not in the class, then parse accepts exactly the chains of operands at each level, down to words of the class and texts between parentheses, and the tree mirrors them. Every expression made of words and these operators, written with parentheses only where precedence (later in the list binds tighter) and association to the left require them, is accepted, and reading the operators in its tree from the left gives back the expression; different expressions are written differently. The tree of any accepted text stands for such an expression, and writing that one again gives a text that is read as the same expression. If the class has some character, there is a constant K such that parse calls parse_expr at most K * (length + 1) times on every ASCII text, accepted or not.", "quantifier": "every list of operators and rule names, every class, every ASCII text, every expression", "why_tests_cant": "All numbers of levels and all nestings of expressions; tests show a few.", "anchors": ["src/parser/expression/mod.rs:231-328 parse_and, parse_or, parse_repeat", "src/parser/atom/mod.rs parse_literal, parse_match", "src/lib.rs:486-521 parse, parse_with_debug"]}
{"id": "C99", "title": "The calls that comparing, printing and dropping values have in progress", "statement": "== on equal trees and dropping a tree nest as many calls as the tree is deep, and {:?} and {:#?} three for each rule on the deepest path. == of different trees never needs more than the depth of the less deep one and stops at the first difference, at different names and at different numbers of nodes, however deep the rest is. For the trees of parse calls in proportion to the text are enough, and no fixed number is. Likewise for dropping and printing sets of rules: the expressions inside of one another decide, for the rules of a PEG text calls in proportion to the text are enough, and no fixed number is. A peg::Error has one level for each construct around the fault, at most 5 * length + 3 for a text and more than n for n parentheses around ''; dropping it and printing it with {} or {:?} nest accordingly. Errors of parse are printed with three calls.", "quantifier": "every tree, set of rules, error, style of the formatter and number of calls; every text", "why_tests_cant": "Tests do not run out of stack, and no finite set of depths shows what bounds the calls.", "anchors": ["src/ast/mod.rs:36-46 Node", "src/parser/expression/mod.rs:33-34,108-137 SetOfRules, Expression", "src/peg/mod.rs:55-102 Error, Display", "src/parser/mod.rs:65-82 Error"]}
{"id": "C100", "title": "An else belongs to the nearest if, and what it costs", "statement": "With the rules main = 'i' main ('e' main)? / [..] parse accepts exactly the ASCII texts of statements made of if, if-else and single characters, and the tree is the only reading where each else belongs to the nearest if that lacks one. The rules main = 'i' main 'e' main / 'i' main / [..] return the same trees for the same texts, but take at least 2^n calls for n ifs, where the first take at most seven for each character of an accepted text. On any text the first take at most 12 (length + 1)^2 calls, and n * n are attained: after n ifs an else followed by n ifs and nothing else is rejected, and each of the first ifs has tried that else again.", "quantifier": "every text, every n, every two different characters for if and else and every class that has neither", "why_tests_cant": "A test shows the tree of a few texts; that no other reading is ever returned, and that the two grammars agree on all texts while one is exponential, concerns infinitely many.", "anchors": ["src/parser/expression/mod.rs:231-328 parse_and, parse_or, parse_repeat", "src/lib.rs:486-521 parse"]}
{"id": "C101", "title": "Comments inside of comments, and those that are not closed", "statement": "With the rules main = '(' (main / !')' .)* ')' parse accepts exactly the ASCII texts where the ) that closes the first (, found by counting, is the last character; the tree has a node main for each comment and a value for each other character. The rules main = '(' (main / !('(' / ')') .)* ')' return the same trees for the same texts. On accepted texts both take at most ten calls for each character. On the text of n + 1 times ( the first take at least 2^n calls before they report the error, because each ( that is not closed is read again as a character; the second take at most 11 * length + 10 calls on every ASCII text.", "quantifier": "every text, every n, every two different characters for ( and )", "why_tests_cant": "Tests use closed comments, where both rules are linear and agree; that they agree on all texts and that one is exponential on unclosed ones concerns infinitely many.", "anchors": ["src/parser/expression/mod.rs:231-328 parse_and, parse_or, parse_not, parse_repeat", "src/lib.rs:486-521 parse"]}
{"id": "C102", "title": "The different calls are few", "statement": "List the calls of parse_expr that parse(s, rules) makes, each with its expression and its status. The list is determined by s and the rules, and has as many entries as calls are counted (C53). Each call is given an expression that occurs in the rules and a place of the text, and two calls with the same expression at the same place return the same nodes and the same rest or the same error; only the error remembered in the status can differ. So at most (number of expressions in the rules) * (length + 1) of the calls are different, and if there are more than N times as many calls, then one call is made more than N times at one place: work beyond linear consists of repetitions. With main = \"(\" main \")\" / \"(\" main \"]\" / \"a\" one call is made more than N times on a text of 2n + 1 characters as soon as 2^n > N * 10 * (2n + 2).", "quantifier": "every text, ASCII or not, and every set of rules such that parse returns; every N", "why_tests_cant": "Tests see answers, not calls; that no call ever answers differently the second time concerns all rules and texts.", "anchors": ["src/parser/expression/mod.rs:179-327 parse_rule_name, parse_expr, parse_and, parse_or, parse_not, parse_repeat", "src/lib.rs:486-521 parse"]}
{"id": "C103", "title": "What building the tree costs", "statement": "parse_and and parse_repeat append the nodes of each part to their own vector; matched atoms write one value and matched rules one name. The nodes so moved and the characters so written, also for nodes that are given up later, are determined by the text and the rules. On ASCII texts they are exactly what the declarative semantics of the rules says. If no rule is nested deeper than H, at most H nodes are moved for each call of parse_expr (C53), so collecting the nodes costs no more than a constant per call. The factor is needed: with .* inside k sequences of one expression, a text of n ASCII characters moves (k + 1) * n nodes. If no literal and no name is longer than L (and 3, if EOF is used; 1, if classes or dots are), at most L * calls + 4 characters are written. The tree returned has at most calls + 1 nodes and no more characters than were written.", "quantifier": "every text, ASCII or not, and every set of rules such that parse returns (the attained factor: every ASCII text and every k)", "why_tests_cant": "Tests see the tree, not the vectors it was collected in; the constant holds for all rules, texts and failed attempts.", "anchors": ["src/parser/expression/mod.rs:179-327 parse_rule_name, parse_expr, parse_and, parse_or, parse_repeat", "src/parser/atom/mod.rs:60-160 parse"]}
{"id": "C104", "title": "The nodes in memory are at most proportional to the text", "statement": "Consider the nodes that exist at one moment while parse works: those in the vectors that parse_and and parse_repeat are filling, in all calls in progress, and those a call is returning. The greatest number of them is determined by the text and the rules. For every set of rules there is a factor K such that on every ASCII text on which parse returns, successfully or not, it is at most K * (length + 1), also where parse makes exponentially many calls (main = \"(\" main \")\" / \"(\" main \"]\" / \"a\") and builds nodes again and again. The tree returned is among them. The greatest number is exactly that of the declarative semantics, where a sequence and a repetition keep the nodes of what has matched while they go on, also if what comes next fails, and what is given up is gone. The factor depends on the rules: n nested repetitions give more than 2^n nodes on the empty text.", "quantifier": "every set of rules (left recursive, with empty repetitions, with any bounds), every ASCII text on which parse returns", "why_tests_cant": "It bounds the memory at every moment of every run, for all rules and lengths of text, including failed attempts that leave no trace in the answer.", "anchors": ["src/parser/expression/mod.rs:179-327 parse_rule_name, parse_expr, parse_and, parse_or, parse_not, parse_repeat", "src/lib.rs:486-521 parse"]}
{"id": "C105", "title": "A PEG for JSON is a parser for JSON", "statement": "rules_from_peg reads a PEG text of twelve rules for JSON (one per line: main = ws value; value = (object / array / string / number / word) ws; object = '{' ws ('}' / member (',' ws member)* '}'); member = string ws ':' ws value; array = '[' ws (']' / value (',' ws value)* ']'); string = '\"' char* '\"'; char = [ -!#-[]-\\x7f] / \"\\\\\" ([\"\\/bfnrt] / 'u' hex hex hex hex); hex = [0-9A-Fa-f]; number = '-'? ('0' / [1-9] digit*) ('.' digit+)? ([eE] ('+' / '-')? digit+)?; digit = [0-9]; word = 'true' / 'false' / 'null'; ws = (' ' / \"\\t\" / \"\\n\" / \"\\r\")*; \\x7f is that character itself). With the rules it returns, parse accepts an ASCII text exactly when it is a JSON text as RFC 8259 defines it (white space, numbers, strings with their escapes, arrays, objects, the three words), and returns an error for every other ASCII text. The value that the text stands for can be read from the tree. No text stands for two values. Every value, written as a text in the plainest way, is read back as that value. The number of calls is at most proportional to the length of the text.", "quantifier": "every ASCII text; every JSON value whose numbers are numbers and whose code units have 16 bits", "why_tests_cant": "JSON has infinitely many texts and non-texts of any depth; the equivalence says that none is wrongly accepted, wrongly refused or read as another value.", "anchors": ["src/peg/mod.rs:191-196 rules_from_peg", "src/peg/rules.rs", "src/lib.rs:486-521 parse", "src/parser/expression/mod.rs:179-327"]}
{"id": "C106", "title": "What parse does not look at does not matter", "statement": "Let parse(text, rules) return, and let k be such that it looked at no character behind the first k (an atom looks at the characters that it compares; finding the end counts as looking at the place behind the last character; once main has matched, parse looks whether the text is at its end). Then parse returns the same answer for every other text with the same first k characters, and looks no further there either: the same tree, the same panic, or an error with the same position, description, line before, rules and priority (only the rest of the line may be another). A syntax error of rules_from_peg is the same for every text with the same first k characters, where k is as far as it looked. A text is accepted only after its end has been seen. Whenever parse returns it has looked no further than one place behind the text. And the count is not generous. For an accepted text of n characters it is n+1, whatever the rules are. With an atom as the only rule, if parse looked at more than the first k characters of an ASCII text, then some text that begins with the same k characters gets another answer; for a literal, some such text is accepted.", "quantifier": "all texts (ASCII or not), all rule sets, all k", "why_tests_cant": "The claim is about all the infinitely many ways in which a text can go on behind the place where parse stopped looking; a test tries some.", "anchors": ["src/parser/atom/mod.rs:103-193 parse_literal, parse_dot, parse_match, parse_eof, Status::get_char", "src/parser/expression/mod.rs:179-327 parse_expr and what it calls", "src/lib.rs:486-521 parse, parse_with_debug"]}
{"id": "C107", "title": "main = 'a' main 'a' / 'a' accepts 1, 3, 7, 15, ... letters", "statement": "rules_from_peg reads \"main = 'a' main 'a' / 'a'\\n\". With the rules that it returns, parse accepts exactly the texts of 2^n - 1 letters a, n >= 1, and the tree is then the nest with the same number of letters on both sides of the one in the middle. Every other ASCII text is an error, although the rule, read as a context-free grammar, derives every odd number of letters (and nothing else). parse answers after at most 6n+4 calls of parse_expr for a text of n characters.", "quantifier": "all texts", "why_tests_cant": "Which lengths are accepted is a claim about infinitely many lengths, and the gaps between the accepted ones double each time.", "anchors": ["src/parser/expression/mod.rs:250-285 parse_or", "src/parser/expression/mod.rs:231-247 parse_and", "src/lib.rs:486-521 parse", "src/peg/mod.rs:191-196 rules_from_peg"]}
{"id": "C108", "title": "A PEG for tables (CSV) is a parser for them", "statement": "rules_from_peg reads a PEG text of five rules for comma-separated values (main = record (\"\\r\\n\" record)*; record = field (',' field)*; field = ('\"' part '\"')+ / text; part = ([ -!#-~] / \"\\r\" / \"\\n\")*; text = [ -!#-+--~]*). With the rules that it returns, parse accepts exactly the texts of tables as RFC 4180 defines them (without the optional line break after the last record; between quotes a quote is doubled, and commas and line breaks stand for themselves). The table can be read from the tree, no text stands for two tables, and every other ASCII text is an error. Every table with at least one record, with at least one field in each record, of printable characters and line breaks, is read back when it is written with all fields between quotes. The table read from the tree is the same after pass_through_except with any list of names that has record, field and part in it, and after compact (that one for every tree). The number of calls is at most proportional to the length of the text.", "quantifier": "all texts; all tables", "why_tests_cant": "There are infinitely many texts and tables; that no field with quotes, commas and line breaks in some arrangement is read as another one is not something that examples show.", "anchors": ["src/peg/mod.rs:191-196 rules_from_peg", "src/lib.rs:486-521 parse", "src/parser/expression/mod.rs:231-327 parse_and, parse_or, parse_repeat", "src/ast/mod.rs:122-145 pass_through_except", "src/ast/mod.rs:173-208 compact"]}
{"id": "C109", "title": "Trees of JSON texts stand for the same value after prune, pass_through_except and compact", "statement": "For the JSON rules of C105 and every text that parse accepts: removing the nodes of the rule ws with prune, dissolving with pass_through_except every rule other than object, array, member, string, char, number and word (or other than any larger list of names), and doing both and then compact, leave the JSON value that is read from the tree as it was. compact alone leaves it as it was for every tree.", "quantifier": "all accepted texts; all lists of names to keep that contain these seven; for compact all trees", "why_tests_cant": "There are infinitely many JSON texts and lists of names; a step that drops or joins a node that matters in some nesting is not ruled out by examples.", "anchors": ["src/ast/mod.rs:72-92 prune", "src/ast/mod.rs:122-145 pass_through_except", "src/ast/mod.rs:173-208 compact", "src/lib.rs:486-521 parse"]}
{"id": "C110", "title": "Choices of words, and codes", "statement": "With main = w1 / w2 / ... (any texts) parse accepts exactly the ASCII words of the list that have a place before which no word is listed that begins them; of a list of different ASCII words all are accepted exactly if no word begins a later one. With main = (w1 / w2 / ...)* and words that are not empty, parse accepts exactly the ASCII texts that can be cut into words by taking each time the first word listed that begins what is left, every other ASCII text is an error, and the calls are at most proportional to the length. If no word begins another one (a prefix code), these are exactly the texts composed of words, the tree has the words of the message in order, every message is read back, no two messages have the same text, and the order of the list does not matter. Without that, a text composed of words may be refused (ab, a, bc in this order: abc). For two or more words of characters up to U+00FF, rules_from_peg reads both kinds of rules from their PEG text.", "quantifier": "all lists of words, all texts, all messages", "why_tests_cant": "All lists with all overlaps of words, and messages of every length; a test of a code tries some messages.", "anchors": ["src/parser/expression/mod.rs:250-327 parse_or, parse_repeat", "src/parser/atom/mod.rs:103-110 parse_literal", "src/lib.rs:486-521 parse, parse_with_debug"]}
{"id": "C111", "title": "Decimal numerals and dotted addresses", "statement": "With main = \"0\" / [1-9] [0-9]* parse accepts exactly the decimal numerals of the natural numbers (no leading zero), its tree has one value for every digit, and different numbers give different trees. With main = octet \".\" octet \".\" octet \".\" octet and octet = \"25\" [0-5] / \"2\" [0-4] [0-9] / \"1\" [0-9] [0-9] / [1-9] [0-9] / [0-9] parse accepts exactly the numerals of four numbers below 256 with dots between them, and the four octet nodes of the tree spell the four numbers. With the same alternatives in the opposite order, exactly the addresses of four digits are accepted: 10.0.0.1 is refused. Every ASCII text that the first two do not accept is an error. The calls are at most proportional to the length for numerals, and bounded for addresses whatever the text. rules_from_peg reads these rules from their text.", "quantifier": "all texts, all natural numbers, all quadruples of numbers below 256", "why_tests_cant": "There are 2^32 addresses and numerals of every length, and the claim is also that no other text is accepted.", "anchors": ["src/parser/expression/mod.rs:250-327 parse_or, parse_repeat", "src/parser/atom/mod.rs:103-153 parse_literal, parse_match", "src/lib.rs:486-521 parse, parse_with_debug"]}
{"id": "C112", "title": "An operator that groups to the right", "statement": "With main = num \"^\" main / num and num = [0-9]+ parse accepts exactly the texts of one or more operands (decimal digits) with ^ between them, and its tree groups them to the right: main has the first operand, ^, and the main of all that follows. The operands can be read off the text in one way only. Every other ASCII text is an error. rules_from_peg reads these rules from their text.", "quantifier": "all texts, all lists of operands", "why_tests_cant": "Any number of operands of any length, and the claim is also that no other text is accepted.", "anchors": ["src/parser/expression/mod.rs:179-285 parse_rule_name, parse_and, parse_or", "src/parser/expression/mod.rs:296-327 parse_repeat", "src/lib.rs:486-521 parse, parse_with_debug"]}
