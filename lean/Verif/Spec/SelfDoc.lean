/-
The PEG grammar of PEG, src/peg/peg2code.rs:26-111, as a document of the concrete syntax (written by
tools/gendoc.py; Props/SelfHost.lean proves that it is the text of the source).
-/
import Verif.Spec.PegSyntax

namespace DP.Spec.Syntax

/-- spaces -/
def sps (n : Nat) : Gaps := List.replicate n .sp

/-- the rules in the order of the text -/
def selfRules : List Def := [
  .rule c!"main" (sps 12) (sps 3) (.one (.item (.plain (.ref c!"grammar")) .nil)) ⟨[], .lf, ([.eol .lf] ++ sps 4)⟩,
  .rule c!"grammar" (sps 9) (sps 3) (.one (.item (.plus (.par [] (.cons (.item (.plain (.ref c!"rule")) .nil) [.sp, .sp] [.sp, .sp] (.one (.item (.plain (.ref c!"module")) .nil))) [])) .nil)) ⟨[], .lf, (sps 4 ++ [.eol .lf] ++ sps 4)⟩,
  .rule c!"module" (sps 10) (sps 3) (.one (.item (.plain (.ref c!"_")) (.item [.sp, .sp] (.plain (.ref c!"mod_name")) (.item [.sp] (.plain (.ref c!"_")) (.item [.sp] (.plain (.lit (.single c!"{"))) (.item [.sp, .sp] (.plain (.ref c!"_")) (.item [.sp] (.plain (.ref c!"grammar")) (.item [.sp, .sp] (.plain (.ref c!"_")) (.item [.sp] (.plain (.lit (.single c!"}"))) (.item [.sp] (.plain (.ref c!"_eol")) (.item [.sp] (.plain (.ref c!"_")) .nil))))))))))) ⟨[], .lf, (sps 4)⟩,
  .rule c!"mod_name" (sps 8) (sps 3) (.one (.item (.plain (.ref c!"symbol")) .nil)) ⟨[], .lf, (sps 4)⟩,
  .rule c!"symbol" (sps 10) (sps 3) (.one (.item (.plain (.cls c!"_" [('a', 'z'), ('A', 'Z'), ('0', '9')])) (.item [.sp] (.star (.cls c!"_'\"" [('a', 'z'), ('A', 'Z'), ('0', '9')])) .nil))) ⟨[], .lf, ([.eol .lf] ++ sps 4)⟩,
  .rule c!"rule" (sps 12) (sps 3) (.one (.item (.plain (.ref c!"_")) (.item [.sp, .sp] (.plain (.ref c!"rule_name")) (.item [.sp, .sp] (.plain (.ref c!"_")) (.item [.sp, .sp] (.plain (.lit (.single c!"="))) (.item [.sp, .sp] (.plain (.ref c!"_")) (.item [.sp, .sp] (.plain (.ref c!"expr")) (.item [.sp, .sp] (.plain (.ref c!"_eol")) (.item [.sp] (.plain (.ref c!"_")) .nil))))))))) ⟨[], .lf, (sps 4)⟩,
  .rule c!"rule_name" (sps 7) (sps 3) (.one (.item (.opt (.lit (.single c!"."))) (.item [.sp, .sp] (.plain (.ref c!"symbol")) (.item [.sp, .sp] (.star (.par [] (.one (.item (.plain (.lit (.single c!"."))) (.item [.sp] (.plain (.ref c!"symbol")) .nil))) [])) .nil)))) ⟨[], .lf, ([.eol .lf] ++ sps 4)⟩,
  .rule c!"expr" (sps 12) (sps 3) (.one (.item (.plain (.ref c!"or")) .nil)) ⟨[], .lf, ([.eol .lf] ++ sps 4)⟩,
  .rule c!"or" (sps 14) (sps 3) (.one (.item (.plain (.ref c!"and")) (.item (sps 9) (.opt (.par [.sp] (.one (.item (.plain (.ref c!"_")) (.item [.sp, .sp] (.plain (.lit (.single c!"/"))) (.item [.sp, .sp] (.plain (.ref c!"_")) (.item [.sp, .sp] (.plain (.ref c!"or")) .nil))))) [.sp])) .nil))) ⟨[], .lf, (sps 4)⟩,
  .rule c!"error" (sps 11) (sps 3) (.one (.item (.plain (.lit (.single c!"error"))) (.item [.sp] (.plain (.ref c!"_")) (.item [.sp, .sp] (.plain (.lit (.single c!"("))) (.item [.sp, .sp] (.plain (.ref c!"_")) (.item [.sp, .sp] (.plain (.ref c!"literal")) (.item [.sp, .sp] (.plain (.ref c!"_")) (.item [.sp, .sp] (.plain (.lit (.single c!")"))) .nil)))))))) ⟨[], .lf, ([.eol .lf] ++ sps 4)⟩,
  .rule c!"and" (sps 13) (sps 3) (.cons (.item (.plain (.ref c!"error")) .nil) ([.sp, .eol .lf] ++ sps 20) (sps 3) (.one (.item (.plain (.ref c!"rep_or_neg")) (.item [.sp, .sp] (.star (.par [.sp] (.one (.item (.plain (.ref c!"_1")) (.item [.sp] (.plain (.ref c!"_")) (.item [.sp] (.not (.par [] (.one (.item (.plain (.ref c!"rule_name")) (.item [.sp] (.plain (.ref c!"_")) (.item [.sp] (.plain (.par [] (.cons (.item (.plain (.lit (.single c!"="))) .nil) [.sp] [.sp] (.one (.item (.plain (.lit (.single c!"{"))) .nil))) [])) .nil)))) [])) (.item [.sp] (.plain (.ref c!"and")) .nil))))) [.sp])) .nil)))) ⟨[], .lf, (sps 4)⟩,
  .rule c!"_1" (sps 14) (sps 3) (.one (.item (.plain (.par [] (.cons (.item (.plain (.lit (.single c!" "))) .nil) [.sp] [.sp] (.one (.item (.plain (.ref c!"eol")) .nil))) [])) .nil)) ⟨(sps 5 ++ [.line c!"  this is the and separator" .lf]), .lf, (sps 4)⟩,
  .rule c!"rep_or_neg" (sps 6) (sps 3) (.cons (.item (.plain (.ref c!"atom_or_par")) (.item [.sp] (.opt (.par [] (.cons (.item (.plain (.lit (.single c!"*"))) .nil) [.sp] [.sp] (.cons (.item (.plain (.lit (.single c!"+"))) .nil) [.sp] [.sp] (.one (.item (.plain (.lit (.single c!"?"))) .nil)))) [])) .nil)) ([.eol .lf] ++ sps 20) (sps 3) (.one (.item (.plain (.lit (.single c!"!"))) (.item [.sp] (.plain (.ref c!"atom_or_par")) .nil)))) ⟨[], .lf, ([.eol .lf] ++ sps 4)⟩,
  .rule c!"atom_or_par" (sps 5) (sps 3) (.one (.item (.plain (.par [] (.cons (.item (.plain (.ref c!"atom")) .nil) [.sp] [.sp] (.one (.item (.plain (.ref c!"parenth")) .nil))) [])) .nil)) ⟨[], .lf, ([.eol .lf] ++ sps 4)⟩,
  .rule c!"parenth" (sps 9) (sps 3) (.one (.item (.plain (.lit (.single c!"("))) (.item [.sp, .sp] (.plain (.ref c!"_")) (.item [.sp, .sp] (.plain (.ref c!"expr")) (.item [.sp, .sp] (.plain (.ref c!"_")) (.item [.sp, .sp] (.plain (.par [.sp, .sp] (.cons (.item (.plain (.lit (.single c!")"))) .nil) ([.eol .lf] ++ sps 41) [.sp, .sp] (.one (.err [] [] (.double [.plain 'u', .plain 'n', .plain 'b', .plain 'a', .plain 'l', .plain 'a', .plain 'n', .plain 'c', .plain 'e', .plain 'd', .plain ' ', .plain 'p', .plain 'a', .plain 'r', .plain 'e', .plain 't', .plain 'h', .plain 'e', .plain 's', .plain 'i', .plain 's', .plain ':', .plain ' ', .plain 'm', .plain 'i', .plain 's', .plain 's', .plain 'i', .plain 'n', .plain 'g', .plain ' ', .plain '\'', .plain ')', .plain '\'']) []))) ([.sp, .eol .lf] ++ sps 41))) .nil)))))) ⟨[], .lf, ([.eol .lf] ++ sps 4)⟩,
  .rule c!"atom" (sps 12) (sps 3) (.cons (.item (.plain (.ref c!"literal")) .nil) ([.eol .lf] ++ sps 20) (sps 3) (.cons (.item (.plain (.ref c!"match")) .nil) ([.eol .lf] ++ sps 20) (sps 3) (.cons (.item (.plain (.ref c!"rule_name")) .nil) ([.eol .lf] ++ sps 20) (sps 3) (.one (.item (.plain (.ref c!"dot")) .nil))))) ⟨(sps 13 ++ [.line c!"  as rule_name can start with a '.', dot has to be after rule_name" .lf]), .lf, (sps 4)⟩,
  .rule c!"literal" (sps 9) [.sp, .sp] (.cons (.item (.plain (.ref c!"lit_noesc")) .nil) [.sp, .sp] [.sp, .sp] (.one (.item (.plain (.ref c!"lit_esc")) .nil))) ⟨[], .lf, ([.eol .lf] ++ sps 4)⟩,
  .rule c!"lit_noesc" (sps 7) (sps 3) (.one (.item (.plain (.ref c!"_'")) (.item (sps 3) (.star (.par [.sp, .sp] (.one (.item (.not (.ref c!"_'")) (.item [.sp] (.plain (.dot)) .nil))) [.sp, .sp])) (.item (sps 3) (.plain (.ref c!"_'")) .nil)))) ⟨[], .lf, (sps 4)⟩,
  .rule c!"_'" (sps 14) (sps 3) (.one (.item (.plain (.lit (.double [.plain '\'']))) .nil)) ⟨[], .lf, ([.eol .lf] ++ sps 4)⟩,
  .rule c!"lit_esc" (sps 9) (sps 3) (.one (.item (.plain (.ref c!"_\"")) (.item ([.eol .lf] ++ sps 28) (.star (.par (sps 3) (.cons (.item (.plain (.ref c!"esc_char")) .nil) ([.eol .lf] ++ sps 28) (sps 3) (.cons (.item (.plain (.ref c!"hex_char")) .nil) ([.eol .lf] ++ sps 28) (sps 3) (.one (.item (.not (.ref c!"_\"")) (.item [.sp] (.plain (.dot)) .nil))))) ([.eol .lf] ++ sps 28))) (.item ([.eol .lf] ++ sps 24) (.plain (.ref c!"_\"")) .nil)))) ⟨[], .lf, (sps 4)⟩,
  .rule c!"_\"" (sps 14) (sps 3) (.one (.item (.plain (.lit (.single c!"\""))) .nil)) ⟨[], .lf, ([.eol .lf] ++ sps 4)⟩,
  .rule c!"esc_char" (sps 8) (sps 3) (.cons (.item (.plain (.lit (.single c!"\\r"))) .nil) ([.eol .lf] ++ sps 20) (sps 3) (.cons (.item (.plain (.lit (.single c!"\\n"))) .nil) ([.eol .lf] ++ sps 20) (sps 3) (.cons (.item (.plain (.lit (.single c!"\\t"))) .nil) ([.eol .lf] ++ sps 20) (sps 3) (.cons (.item (.plain (.lit (.single c!"\\\\"))) .nil) ([.eol .lf] ++ sps 20) (sps 3) (.one (.item (.plain (.lit (.single c!"\\\""))) .nil)))))) ⟨[], .lf, ([.eol .lf] ++ sps 4)⟩,
  .rule c!"hex_char" (sps 8) (sps 3) (.one (.item (.plain (.lit (.single c!"\\0x"))) (.item [.sp] (.plain (.cls c!"" [('0', '9'), ('A', 'F')])) (.item [.sp] (.plain (.cls c!"" [('0', '9'), ('A', 'F')])) .nil)))) ⟨[], .lf, ([.eol .lf] ++ sps 4)⟩,
  .rule c!"eol" (sps 13) (sps 3) (.one (.item (.plain (.par [] (.cons (.item (.plain (.lit (.double [.esc .cr, .esc .nl]))) .nil) [.sp, .sp] [.sp, .sp] (.cons (.item (.plain (.lit (.double [.esc .nl]))) .nil) [.sp, .sp] [.sp, .sp] (.one (.item (.plain (.lit (.double [.esc .cr]))) .nil)))) [])) .nil)) ⟨[], .lf, (sps 4)⟩,
  .rule c!"_eol" (sps 12) (sps 3) (.one (.item (.star (.par [] (.cons (.item (.plain (.lit (.single c!" "))) .nil) [.sp] [.sp] (.one (.item (.plain (.ref c!"comment")) .nil))) [])) (.item [.sp, .sp] (.plain (.ref c!"eol")) .nil))) ⟨[], .lf, ([.eol .lf] ++ sps 4)⟩,
  .rule c!"match" (sps 11) (sps 3) (.one (.item (.plain (.lit (.single c!"["))) (.item ([.eol .lf] ++ sps 28) (.plain (.par ([.eol .lf] ++ sps 32) (.cons (.item (.plain (.par [] (.one (.item (.plain (.ref c!"mchars")) (.item [.sp, .sp] (.star (.ref c!"mbetween")) .nil))) [])) .nil) ([.eol .lf] ++ sps 32) [.sp] (.one (.item (.plus (.ref c!"mbetween")) .nil))) ([.eol .lf] ++ sps 28))) (.item ([.eol .lf] ++ sps 24) (.plain (.lit (.single c!"]"))) .nil)))) ⟨[], .lf, ([.eol .lf] ++ sps 4)⟩,
  .rule c!"mchars" (sps 10) (sps 3) (.one (.item (.plus (.par [] (.one (.item (.not (.lit (.single c!"]"))) (.item [.sp] (.not (.par [] (.one (.item (.plain (.dot)) (.item [.sp] (.plain (.lit (.single c!"-"))) .nil))) [])) (.item [.sp] (.plain (.dot)) .nil)))) [])) .nil)) ⟨[], .lf, (sps 4)⟩,
  .rule c!"mbetween" (sps 8) (sps 3) (.one (.item (.plain (.par [] (.one (.item (.plain (.dot)) (.item [.sp, .sp] (.plain (.lit (.single c!"-"))) (.item [.sp, .sp] (.plain (.dot)) .nil)))) [])) .nil)) ⟨[], .lf, ([.eol .lf] ++ sps 4)⟩,
  .rule c!"dot" (sps 13) (sps 3) (.one (.item (.plain (.lit (.single c!"."))) .nil)) ⟨[], .lf, ([.eol .lf] ++ sps 4)⟩,
  .rule c!"_" (sps 15) (sps 3) (.one (.item (.star (.par [.sp, .sp] (.cons (.item (.plain (.lit (.single c!" "))) .nil) ([.eol .lf] ++ sps 24) (sps 3) (.cons (.item (.plain (.ref c!"eol")) .nil) ([.eol .lf] ++ sps 24) (sps 3) (.one (.item (.plain (.ref c!"comment")) .nil)))) ([.eol .lf] ++ sps 24))) .nil)) ⟨[], .lf, ([.eol .lf] ++ sps 4)⟩,
  .rule c!"comment" (sps 9) (sps 3) (.cons (.item (.plain (.ref c!"line_comment")) .nil) ([.eol .lf] ++ sps 20) (sps 3) (.one (.item (.plain (.ref c!"mline_comment")) .nil))) ⟨[], .lf, ([.eol .lf] ++ sps 4)⟩,
  .rule c!"line_comment" (sps 4) (sps 3) (.one (.item (.plain (.lit (.single c!"//"))) (.item [.sp] (.star (.par [] (.one (.item (.not (.ref c!"eol")) (.item [.sp] (.plain (.dot)) .nil))) [])) (.item [.sp, .sp] (.plain (.ref c!"eol")) .nil)))) ⟨[], .lf, (sps 4)⟩,
  .rule c!"mline_comment" (sps 3) (sps 3) (.one (.item (.plain (.lit (.single c!"/*"))) (.item [.sp] (.star (.par [] (.one (.item (.not (.lit (.single c!"*/"))) (.item [.sp] (.plain (.dot)) .nil))) [])) (.item [.sp] (.plain (.lit (.single c!"*/"))) .nil)))) ⟨[], .lf, (sps 4)⟩]

def defsOf (d : Def) : List Def → Defs
  | [] => .one d
  | d' :: ds => .cons d (defsOf d' ds)

def selfDoc : Doc :=
  match selfRules with
  | [] => ⟨[], .one (.rule [] [] [] (.one (.err [] [] (.single []) [])) ⟨[], .lf, []⟩)⟩
  | d :: ds => ⟨([.eol .lf] ++ sps 4 ++ [.multi c!"      A peg grammar to parse peg grammars\n     *\n     ", .eol .lf, .eol .lf] ++ sps 4), defsOf d ds⟩

end DP.Spec.Syntax
