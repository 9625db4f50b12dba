/-
Property C66: comparing trees, flat trees, errors, positions and priorities.
-/
import Verif.Model.Equal
import Verif.Props.Ast
import Verif.Props.Debug
import Verif.Props.ContextFree
import Verif.Props.Gcode
import Verif.Proofs.Decide

namespace DP
open Spec

mutual
theorem eq_node : ∀ t t' : Node, Equal.node t t' = true ↔ t = t'
  | .val s, .val s' => by simp [Equal.node]
  | .val _, .rule _ _ => by simp [Equal.node]
  | .val _, .eof => by simp [Equal.node]
  | .rule _ _, .val _ => by simp [Equal.node]
  | .rule n ns, .rule n' ns' => by simp [Equal.node, eq_nodes ns ns']
  | .rule _ _, .eof => by simp [Equal.node]
  | .eof, .val _ => by simp [Equal.node]
  | .eof, .rule _ _ => by simp [Equal.node]
  | .eof, .eof => by simp [Equal.node]
theorem eq_nodes : ∀ ts ts' : List Node, Equal.nodes ts ts' = true ↔ ts = ts'
  | [], [] => by simp [Equal.nodes]
  | [], _ :: _ => by simp [Equal.nodes]
  | _ :: _, [] => by simp [Equal.nodes]
  | t :: ts, t' :: ts' => by simp [Equal.nodes, eq_node t t', eq_nodes ts ts']
end

theorem eq_fnode (t t' : FNode) : Equal.fnode t t' = true ↔ t = t' := by
  cases t <;> cases t' <;> simp [Equal.fnode]

theorem eq_fnodes : ∀ ts ts' : List FNode, Equal.fnodes ts ts' = true ↔ ts = ts'
  | [], [] => by simp [Equal.fnodes]
  | [], _ :: _ => by simp [Equal.fnodes]
  | _ :: _, [] => by simp [Equal.fnodes]
  | t :: ts, t' :: ts' => by simp [Equal.fnodes, eq_fnode t t', eq_fnodes ts ts']

theorem eq_astError (e e' : AstError) : Equal.astError e e' = true ↔ e = e' := by
  rcases e with ⟨d, _ | c⟩ <;> rcases e' with ⟨d', _ | c'⟩ <;> simp [Equal.astError]

/-- **C66**: `==` is equality: of trees, of flat trees, of the errors of the functions on trees and of positions. -/
theorem C66_equality :
    (∀ t t' : Node, Equal.node t t' = true ↔ t = t') ∧ (∀ ts ts' : List FNode, Equal.fnodes ts ts' = true ↔ ts = ts') ∧
    (∀ e e' : AstError, Equal.astError e e' = true ↔ e = e') ∧ (∀ p p' : Pos, Equal.pos p p' = true ↔ p = p') := by
  refine ⟨eq_node, eq_fnodes, eq_astError, fun p p' => ?_⟩
  rcases p with ⟨a, b, c, d⟩
  rcases p' with ⟨a', b', c', d'⟩
  simp [Equal.pos, and_assoc]

/-- **C66**: `==` holds exactly if `{:?}`, or `{:#?}`, prints the same. -/
theorem C66_same_text (sty : Debug.Style) (lay : Debug.Layout) :
    (∀ t t' : Node, Equal.node t t' = true ↔ Debug.fmt sty lay (Debug.ofNode t) = Debug.fmt sty lay (Debug.ofNode t')) ∧
    (∀ t t' : FNode, Equal.fnode t t' = true ↔ Debug.fmt sty lay (Debug.ofFNode t) = Debug.fmt sty lay (Debug.ofFNode t')) ∧
    (∀ e e' : AstError, Equal.astError e e' = true ↔
      Debug.fmt sty lay (Debug.ofAstError e) = Debug.fmt sty lay (Debug.ofAstError e')) :=
  ⟨fun t t' => by rw [eq_node, C51_trees], fun t t' => by rw [eq_fnode, C51_flat_nodes],
    fun e e' => by rw [eq_astError, C51_ast_errors]⟩

theorem gen_noEof {G e u ns} (h : Gen G e u ns) : ∀ t ∈ ns, NoEofNodes t := by
  induction h with
  | lit | cls | dot | eof => intro t ht; rw [List.mem_singleton] at ht; exact ht ▸ .val _
  | nil | not | none | full => intro t ht; cases ht
  | cons _ _ ih ih' | more _ _ _ ih ih' =>
    intro t ht
    rcases List.mem_append.1 ht with ht | ht
    · exact ih t ht
    · exact ih' t ht
  | or _ _ ih => exact ih
  | call _ _ ih => intro t ht; rw [List.mem_singleton] at ht; exact ht ▸ .rule ih

/-- **C66**: `parse` makes no `Node::EOF`, whatever the rules: the end of the text is `Node::Val("EOF")`. -/
theorem C66_no_eof_node {s : Str} {R : SetOfRules} {t : Node} (h : parse s R = .ok t) : NoEofNodes t :=
  gen_noEof (C63_sound h) t (List.mem_singleton.2 rfl)

/-- **C66**: trees of `parse` are equal exactly if their flat trees are. (In general they are not: flat trees have no
EOF nodes, C27.) -/
theorem C66_flatten {s s' : Str} {R R' : SetOfRules} {t t' : Node} (h : parse s R = .ok t) (h' : parse s' R' = .ok t') :
    Equal.node t t' = Equal.fnodes t.flatten t'.flatten := by
  rw [Bool.eq_iff_iff, eq_node, eq_fnodes]
  exact ⟨fun h => h ▸ rfl, C27_flatten_injective (C66_no_eof_node h) (C66_no_eof_node h')⟩

/-- **C66**: equal trees of `parse` come from equal texts, if there is no EOF in the rules. -/
theorem C66_same_input {s s' : Str} {R R' : SetOfRules} {t t' : Node} (hR : ∀ ne ∈ R.entries, NoEof ne.2)
    (hR' : ∀ ne ∈ R'.entries, NoEof ne.2) (h : parse s R = .ok t) (h' : parse s' R' = .ok t')
    (he : Equal.node t t' = true) : s = s' := by
  rw [eq_node] at he
  subst he
  rw [← C03_leaves_spell_input hR h, ← C03_leaves_spell_input hR' h']

/-- **C66**: priorities: `Normal` is below `Critical`; `==`, `cmp`, `partial_cmp`, `max` and `min` are those of this
order, and `>`, which decides between the errors of a choice, holds in one case. -/
theorem C66_priorities :
    (∀ p p', Equal.prio p p' = true ↔ p = p') ∧
    (∀ p p', Equal.cmp p p' = .eq ↔ p = p') ∧
    (∀ p p', Equal.cmp p p' = .lt ↔ p = .normal ∧ p' = .critical) ∧
    (∀ p p', Equal.cmp p p' = .gt ↔ p = .critical ∧ p' = .normal) ∧
    (∀ p p', Equal.partialCmp p p' = some (Equal.cmp p p')) ∧
    (∀ p p', Prio.gt p p' = true ↔ Equal.partialCmp p p' = some .gt) ∧
    (∀ p p', Equal.max p p' = .critical ↔ p = .critical ∨ p' = .critical) ∧
    (∀ p p', Equal.min p p' = .normal ↔ p = .normal ∨ p' = .normal) := by
  refine ⟨?_, ?_, ?_, ?_, fun _ _ => rfl, ?_, ?_, ?_⟩ <;> intro p p' <;> cases p <;> cases p' <;> decide

/-- **C66**: the number of repetitions is displayed as a decimal literal of that number, so different numbers are
displayed differently. -/
theorem C66_repetitions (n : Nat) : DecLit (Equal.displayNRep n) n ∧ ∀ m, Equal.displayNRep n = Equal.displayNRep m → n = m := by
  exact ⟨natCode_dec n, fun m h => Debug.dec_inj h⟩

/-- two trees that differ in one value, one that lacks it, and the same tree twice -/
example : Equal.node (.rule c!"a" [.val c!"x", .eof]) (.rule c!"a" [.val c!"y", .eof]) = false ∧
    Equal.node (.rule c!"a" [.val c!"x", .eof]) (.rule c!"a" [.val c!"x"]) = false ∧
    Equal.node (.rule c!"a" [.val c!"x", .eof]) (.rule c!"a" [.val c!"x", .eof]) = true := by decide

/-- flat trees do not tell these apart: the condition of `C66_flatten` is needed -/
example : Equal.node (.rule c!"a" [.eof]) (.rule c!"a" []) = false ∧
    Equal.fnodes (Node.flatten (.rule c!"a" [.eof])) (Node.flatten (.rule c!"a" [])) = true := by decide

/-- the tree of `main = 'a' EOF`: the end of the text is a value -/
def exEnd : SetOfRules := ⟨[(c!"main", .and [.simple (.literal c!"a"), .simple .eof])]⟩

theorem exEnd_parse : parse c!"a" exEnd = .ok (.rule c!"main" [.val c!"a", .val c!"EOF"]) :=
  parse_of_fuel (f := 20) (by decide +kernel) (by simp)

example : NoEofNodes (.rule c!"main" [.val c!"a", .val c!"EOF"]) := C66_no_eof_node exEnd_parse

/-- without the condition on the rules equal trees can come from different texts -/
example : ∃ R R' s s' t, parse s R = .ok t ∧ parse s' R' = .ok t ∧ s ≠ s' :=
  ⟨⟨[(c!"main", .simple .eof)]⟩, ⟨[(c!"main", .simple (.literal c!"EOF"))]⟩, [], c!"EOF", .rule c!"main" [.val c!"EOF"],
    parse_of_fuel (f := 20) (by decide +kernel) (by simp), parse_of_fuel (f := 20) (by decide +kernel) (by simp), by decide⟩

example : Equal.displayNRep 120 = c!"120" := by decide

end DP
