/-
Independent specification: giving rules other names.
-/
import Verif.Model.Parser

namespace DP.Spec

mutual
/-- the expression with other names of rules -/
def renExpr (σ : Str → Str) : Expr → Expr
  | .simple a => .simple a
  | .and es => .and (renExprs σ es)
  | .or es => .or (renExprs σ es)
  | .not e => .not (renExpr σ e)
  | .rep e mn mx => .rep (renExpr σ e) mn mx
  | .ruleName n => .ruleName (σ n)
def renExprs (σ : Str → Str) : List Expr → List Expr
  | [] => []
  | e :: es => renExpr σ e :: renExprs σ es
end

mutual
/-- the tree with other names of rules -/
def renNode (σ : Str → Str) : Node → Node
  | .val v => .val v
  | .eof => .eof
  | .rule n ns => .rule (σ n) (renNodes σ ns)
def renNodes (σ : Str → Str) : List Node → List Node
  | [] => []
  | t :: ts => renNode σ t :: renNodes σ ts
end

/-- the set of rules with other names -/
def renRules (σ : Str → Str) (R : SetOfRules) : SetOfRules :=
  ⟨R.entries.map fun x => (σ x.1, renExpr σ x.2)⟩

/-- the only description that mentions a rule -/
def renDescr (σ : Str → Str) : Descr → Descr
  | .missingRule n => .missingRule (σ n)
  | d => d

/-- the error with other names of rules; the entries of the trace are `r:` and a name -/
def renError (σ : Str → Str) (e : Error) : Error :=
  { e with descr := renDescr σ e.descr, parsingRules := e.parsingRules.map fun m => c!"r:" ++ σ (m.drop 2) }

/-- the answer with other names of rules -/
def renAnswer (σ : Str → Str) : Out Error Node → Out Error Node
  | .ok t => .ok (renNode σ t)
  | .err e => .err (renError σ e)
  | .panic => .panic
  | .diverge => .diverge

end DP.Spec
