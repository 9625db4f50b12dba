{
 "C06": {
  "note": "The naive statement is false for degenerate bounds (C06_bounds_false); the property is stated with the exact behaviour for all bounds."
 },
 "C13": {
  "note": "The expectation 'parse always returns' is false; the property states the negation and its general cause."
 },
 "C17": {
  "note": "The expectation 'non-ASCII text is handled like any other' is false; the property states what holds."
 },
 "C21": {
  "note": "The original expectation (error never before the end of the match) is false: C21_may_precede_the_end_of_the_match. The property states what holds."
 },
 "C35": {
  "note": "The expectation 'verbatim' is false (C35_not_verbatim, C35_empty_rejected); the property states what holds."
 },
 "C37": {
  "note": "Module prefixes are not applied (C37_module_prefix_is_not_applied)."
 },
 "C38": {
  "note": "The expectation 'every accepted text compiles' is false (C38_counterexamples); the property states exactly which do."
 },
 "C43": {
  "note": "Contradicts README.md:653-659."
 },
 "C49": {
  "note": "C49_optional_is_not_a_choice, C49_common_endings_false and C49_empty_choice_false refute three further laws that one would expect."
 }
}