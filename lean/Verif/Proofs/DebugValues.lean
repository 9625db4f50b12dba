/-
The values behind the texts.
-/
import Verif.Proofs.Debug
import Verif.Spec.RustCode
import Verif.Spec.Complaint

namespace DP
namespace Debug
open Spec

theorem ok_call {name : Str} {ds : List Dbg} (hw : ∀ c ∈ name, word c = true) (hn : ds = [] → name ≠ [])
    (hd : ∀ d ∈ ds, Ok d) : Ok (call name ds) := by
  refine .tuple hw (fun h => hn (by simpa using h)) ?_
  intro e he
  obtain ⟨d, h1, rfl⟩ := List.mem_map.1 he
  exact .tuple (hd d h1)

theorem ok_vec {ds : List Dbg} (hd : ∀ d ∈ ds, Ok d) : Ok (vec ds) := by
  refine .list ?_
  intro e he
  obtain ⟨d, h1, rfl⟩ := List.mem_map.1 he
  exact .list (hd d h1)

theorem ok_struct {name : Str} {fs : List (Str × Dbg)} (hn : name ≠ []) (hw : ∀ c ∈ name, word c = true) (hf : fs ≠ [])
    (hd : ∀ f ∈ fs, (∀ c ∈ f.1, word c = true) ∧ f.1 ≠ [] ∧ Ok f.2) : Ok (struct name fs) := by
  refine .struct hn hw (by simpa using hf) ?_
  intro e he
  obtain ⟨f, h1, rfl⟩ := List.mem_map.1 he
  obtain ⟨h2, h3, h4⟩ := hd f h1
  exact .struct h2 h3 h4

theorem ok_opt {o : Option Dbg} (h : ∀ d, o = some d → Ok d) : Ok (opt o) := by
  cases o with
  | none => exact ok_call (by decide) (by simp) (by simp)
  | some d => exact ok_call (by decide) (by simp) (by simpa using h d rfl)

theorem call_inj {n n' ds ds'} (h : call n ds = call n' ds') : n = n' ∧ ds = ds' := by
  simp only [call, Dbg.group.injEq, true_and] at h
  exact ⟨h.1, (List.map_inj_right (fun _ _ h => by cases h; rfl)).1 h.2⟩

theorem vec_inj {ds ds'} (h : vec ds = vec ds') : ds = ds' := by
  simp only [vec, Dbg.group.injEq, true_and] at h
  exact (List.map_inj_right (fun _ _ h => by cases h; rfl)).1 h

theorem struct_inj {n n' fs fs'} (h : struct n fs = struct n' fs') : n = n' ∧ fs = fs' := by
  simp only [struct, Dbg.group.injEq, true_and] at h
  exact ⟨h.1, (List.map_inj_right (fun _ _ h => by simp only [Entry.field.injEq] at h; exact Prod.ext h.1 h.2)).1 h.2⟩

theorem opt_inj {o o'} (h : opt o = opt o') : o = o' := by
  cases o <;> cases o' <;> first | rfl | (simp only [opt] at h; have := call_inj h; clear h; simp_all)

/-! ### trees -/

mutual
theorem ok_node : ∀ t, Ok (ofNode t)
  | .val s => by rw [ofNode]; exact ok_call (by decide) (by simp) (by simpa using .str s)
  | .rule n ns => by
    rw [ofNode]
    refine ok_call (by decide) (by simp) ?_
    intro d hd
    rw [List.mem_singleton] at hd
    subst hd
    refine ok_call (by decide) (by simp) ?_
    intro d hd
    simp only [List.mem_cons, List.not_mem_nil, or_false] at hd
    rcases hd with rfl | rfl
    · exact .str _
    · exact ok_vec (ok_nodes ns)
  | .eof => by rw [ofNode]; exact ok_call (by decide) (by simp) (by simp)
theorem ok_nodes : ∀ ts, ∀ d ∈ ofNodes ts, Ok d
  | [] => by simp [ofNodes]
  | t :: ts => by
    intro d hd
    rw [ofNodes, List.mem_cons] at hd
    rcases hd with rfl | hd
    · exact ok_node t
    · exact ok_nodes ts d hd
end

mutual
theorem ofNode_inj : ∀ t t', ofNode t = ofNode t' → t = t'
  | .val s, t', h => by
    cases t' <;> first | rfl | (simp only [ofNode] at h; have := call_inj h; clear h; simp_all)
  | .rule n ns, t', h => by
    cases t' with
    | rule n' ns' =>
      simp only [ofNode] at h
      have h1 := (call_inj h).2
      simp only [List.cons.injEq, and_true] at h1
      have h2 := (call_inj h1).2
      simp only [List.cons.injEq, Dbg.str.injEq, and_true] at h2
      rw [h2.1, ofNodes_inj ns ns' (vec_inj h2.2)]
    | val _ => simp only [ofNode] at h; have := call_inj h; simp at this
    | eof => simp only [ofNode] at h; have := call_inj h; simp at this
  | .eof, t', h => by
    cases t' <;> first | rfl | (simp only [ofNode] at h; have := call_inj h; clear h; simp_all)
theorem ofNodes_inj : ∀ ts ts', ofNodes ts = ofNodes ts' → ts = ts'
  | [], [], _ => rfl
  | [], _ :: _, h => by simp [ofNodes] at h
  | _ :: _, [], h => by simp [ofNodes] at h
  | t :: ts, t' :: ts', h => by
    simp only [ofNodes, List.cons.injEq] at h
    rw [ofNode_inj t t' h.1, ofNodes_inj ts ts' h.2]
end

theorem ok_fnode : ∀ t, Ok (ofFNode t)
  | .val s => ok_call (by decide) (by simp) (by simpa using .str s)
  | .beginRule s => ok_call (by decide) (by simp) (by simpa using .str s)
  | .endRule s => ok_call (by decide) (by simp) (by simpa using .str s)
  | .eof => ok_call (by decide) (by simp) (by simp)

theorem ofFNode_inj {t t'} (h : ofFNode t = ofFNode t') : t = t' := by
  cases t <;> cases t' <;> first | rfl | (simp only [ofFNode] at h; have := call_inj h; clear h; simp_all)

/-! ### rules -/

theorem ok_ranges (rs) : Ok (ofRanges rs) := by
  refine ok_vec ?_
  intro d hd
  obtain ⟨r, _, rfl⟩ := List.mem_map.1 hd
  refine ok_call (by decide) (by simp) ?_
  intro d hd
  simp only [List.mem_cons, List.not_mem_nil, or_false] at hd
  rcases hd with rfl | rfl <;> exact .chr _

theorem ofRanges_inj {rs rs'} (h : ofRanges rs = ofRanges rs') : rs = rs' := by
  refine (List.map_inj_right ?_).1 (vec_inj h)
  intro r r' h
  have := (call_inj h).2
  simp only [List.cons.injEq, Dbg.chr.injEq, and_true] at this
  exact Prod.ext this.1 this.2

theorem ok_atom : ∀ a, Ok (ofAtom a)
  | .literal s => ok_call (by decide) (by simp) (by simpa using .str s)
  | .error s => ok_call (by decide) (by simp) (by simpa using .str s)
  | .dot => ok_call (by decide) (by simp) (by simp)
  | .eof => ok_call (by decide) (by simp) (by simp)
  | .mtch cs rs => by
    refine ok_call (by decide) (by simp) ?_
    intro d hd
    rw [List.mem_singleton] at hd
    subst hd
    refine ok_call (by decide) (by simp) ?_
    intro d hd
    simp only [List.mem_cons, List.not_mem_nil, or_false] at hd
    rcases hd with rfl | rfl
    · exact .str _
    · exact ok_ranges rs

theorem ofAtom_inj {a a'} (h : ofAtom a = ofAtom a') : a = a' := by
  cases a with
  | mtch cs rs =>
    cases a' with
    | mtch cs' rs' =>
      have h1 := (call_inj h).2
      simp only [List.cons.injEq, and_true] at h1
      have h2 := (call_inj h1).2
      simp only [List.cons.injEq, Dbg.str.injEq, and_true] at h2
      rw [h2.1, ofRanges_inj h2.2]
    | _ => simp only [ofAtom] at h; have := call_inj h; simp at this
  | _ => cases a' <;> first | rfl | (simp only [ofAtom] at h; have := call_inj h; clear h; simp_all)

theorem ok_nrep (n) : Ok (ofNRep n) := ok_call (by decide) (by simp) (by simpa using .num n)

theorem ofNRep_inj {n n'} (h : ofNRep n = ofNRep n') : n = n' := by
  have := (call_inj h).2; simpa using this

mutual
theorem ok_expr : ∀ e, Ok (ofExpr e)
  | .simple a => by rw [ofExpr]; exact ok_call (by decide) (by simp) (by simpa using ok_atom a)
  | .and es => by
    rw [ofExpr]
    refine ok_call (by decide) (by simp) ?_
    simp only [List.mem_singleton, forall_eq]
    refine ok_call (by decide) (by simp) ?_
    simp only [List.mem_singleton, forall_eq]
    exact ok_vec (ok_exprs es)
  | .or es => by
    rw [ofExpr]
    refine ok_call (by decide) (by simp) ?_
    simp only [List.mem_singleton, forall_eq]
    refine ok_call (by decide) (by simp) ?_
    simp only [List.mem_singleton, forall_eq]
    exact ok_vec (ok_exprs es)
  | .not e => by rw [ofExpr]; exact ok_call (by decide) (by simp) (by simpa using ok_expr e)
  | .rep e mn mx => by
    rw [ofExpr]
    refine ok_call (by decide) (by simp) ?_
    simp only [List.mem_singleton, forall_eq]
    refine ok_struct (by decide) (by decide) (by simp) ?_
    intro f hf
    simp only [List.mem_cons, List.not_mem_nil, or_false] at hf
    rcases hf with rfl | rfl | rfl
    · exact ⟨by dsimp only; decide, by dsimp only; decide, ok_expr e⟩
    · exact ⟨by dsimp only; decide, by dsimp only; decide, ok_nrep mn⟩
    · refine ⟨by dsimp only; decide, by dsimp only; decide, ok_opt ?_⟩
      intro d hd
      obtain ⟨m, _, rfl⟩ := Option.map_eq_some_iff.1 hd
      exact ok_nrep m
  | .ruleName n => by rw [ofExpr]; exact ok_call (by decide) (by simp) (by simpa using .str n)
theorem ok_exprs : ∀ es, ∀ d ∈ ofExprs es, Ok d
  | [] => by simp [ofExprs]
  | e :: es => by
    intro d hd
    rw [ofExprs, List.mem_cons] at hd
    rcases hd with rfl | hd
    · exact ok_expr e
    · exact ok_exprs es d hd
end

mutual
theorem ofExpr_inj : ∀ e e', ofExpr e = ofExpr e' → e = e'
  | .simple a, e', h => by
    cases e' with
    | simple a' =>
      simp only [ofExpr] at h; have := (call_inj h).2
      simp only [List.cons.injEq, and_true] at this
      rw [ofAtom_inj this]
    | _ => simp only [ofExpr] at h; have := call_inj h; simp at this
  | .and es, e', h => by
    cases e' with
    | and es' =>
      simp only [ofExpr] at h; have := (call_inj h).2
      simp only [List.cons.injEq, and_true] at this
      have := (call_inj this).2
      simp only [List.cons.injEq, and_true] at this
      rw [ofExprs_inj es es' (vec_inj this)]
    | _ => simp only [ofExpr] at h; have := call_inj h; simp at this
  | .or es, e', h => by
    cases e' with
    | or es' =>
      simp only [ofExpr] at h; have := (call_inj h).2
      simp only [List.cons.injEq, and_true] at this
      have := (call_inj this).2
      simp only [List.cons.injEq, and_true] at this
      rw [ofExprs_inj es es' (vec_inj this)]
    | _ => simp only [ofExpr] at h; have := call_inj h; simp at this
  | .not e, e', h => by
    cases e' with
    | not e' =>
      simp only [ofExpr] at h; have := (call_inj h).2
      simp only [List.cons.injEq, and_true] at this
      rw [ofExpr_inj e e' this]
    | _ => simp only [ofExpr] at h; have := call_inj h; simp at this
  | .rep e mn mx, e', h => by
    cases e' with
    | rep e' mn' mx' =>
      simp only [ofExpr] at h; have := (call_inj h).2
      simp only [List.cons.injEq, and_true] at this
      have := (struct_inj this).2
      simp only [List.cons.injEq, Prod.mk.injEq, true_and, and_true] at this
      obtain ⟨h1, h2, h3⟩ := this
      have h4 := opt_inj h3
      have h5 : mx = mx' := by
        cases mx <;> cases mx' <;> simp only [Option.map_none, Option.map_some, reduceCtorEq, Option.some.injEq] at h4
        · rfl
        · rw [ofNRep_inj h4]
      rw [ofExpr_inj e e' h1, ofNRep_inj h2, h5]
    | _ => simp only [ofExpr] at h; have := call_inj h; simp at this
  | .ruleName n, e', h => by
    cases e' <;> first | rfl | (simp only [ofExpr] at h; have := call_inj h; clear h; simp_all)
theorem ofExprs_inj : ∀ es es', ofExprs es = ofExprs es' → es = es'
  | [], [], _ => rfl
  | [], _ :: _, h => by simp [ofExprs] at h
  | _ :: _, [], h => by simp [ofExprs] at h
  | e :: es, e' :: es', h => by
    simp only [ofExprs, List.cons.injEq] at h
    rw [ofExpr_inj e e' h.1, ofExprs_inj es es' h.2]
end

theorem ok_rules (es) : Ok (ofRules es) := by
  refine ok_call (by decide) (by simp) ?_
  simp only [List.mem_singleton, forall_eq]
  refine .map ?_
  intro e he
  obtain ⟨r, _, rfl⟩ := List.mem_map.1 he
  exact .map (.str _) (ok_expr _)

theorem ofRules_inj {es es'} (h : ofRules es = ofRules es') : es = es' := by
  have := (call_inj h).2
  simp only [List.cons.injEq, Dbg.group.injEq, true_and, and_true] at this
  refine (List.map_inj_right ?_).1 this
  intro r r' h
  simp only [Entry.pair.injEq, Dbg.str.injEq] at h
  exact Prod.ext h.1 (ofExpr_inj _ _ h.2)

/-! ### errors -/

theorem ok_pos (p) : Ok (ofPos p) := by
  refine ok_struct (by decide) (by decide) (by simp) ?_
  intro f hf
  simp only [List.mem_cons, List.not_mem_nil, or_false] at hf
  rcases hf with rfl | rfl | rfl | rfl <;> exact ⟨by dsimp only; decide, by dsimp only; decide, .num _⟩

theorem ofPos_inj {p p'} (h : ofPos p = ofPos p') : p = p' := by
  have := (struct_inj h).2
  simp only [List.cons.injEq, Prod.mk.injEq, Dbg.num.injEq, true_and, and_true] at this
  cases p; cases p'; simp_all

theorem ok_prio (p) : Ok (ofPrio p) := by
  cases p <;> exact ok_call (by decide) (by simp) (by simp)

theorem ofPrio_inj {p p'} (h : ofPrio p = ofPrio p') : p = p' := by
  cases p <;> cases p' <;> first | rfl | (simp only [ofPrio] at h; have := call_inj h; clear h; simp_all)

theorem ok_error (sty e) : Ok (ofError sty e) := by
  refine ok_struct (by decide) (by decide) (by simp) ?_
  intro f hf
  simp only [List.mem_cons, List.not_mem_nil, or_false] at hf
  rcases hf with rfl | rfl | rfl | rfl | rfl | rfl
  · exact ⟨by dsimp only; decide, by dsimp only; decide, ok_pos _⟩
  · exact ⟨by dsimp only; decide, by dsimp only; decide, .str _⟩
  · exact ⟨by dsimp only; decide, by dsimp only; decide, .str _⟩
  · exact ⟨by dsimp only; decide, by dsimp only; decide, .str _⟩
  · refine ⟨by dsimp only; decide, by dsimp only; decide, ok_vec ?_⟩
    intro d hd
    obtain ⟨r, _, rfl⟩ := List.mem_map.1 hd
    exact .str _
  · exact ⟨by dsimp only; decide, by dsimp only; decide, ok_prio _⟩

/-- the fields that can be seen: the description as a text -/
def SameError (sty : Style) (e e' : Error) : Prop :=
  e.pos = e'.pos ∧ descrText sty e.descr = descrText sty e'.descr ∧ e.lineBefore = e'.lineBefore ∧
    e.lineAfter = e'.lineAfter ∧ e.parsingRules = e'.parsingRules ∧ e.priority = e'.priority

theorem ofError_inj {sty e e'} : ofError sty e = ofError sty e' ↔ SameError sty e e' := by
  constructor
  · intro h
    have := (struct_inj h).2
    simp only [List.cons.injEq, Prod.mk.injEq, Dbg.str.injEq, true_and, and_true] at this
    obtain ⟨h1, h2, h3, h4, h5, h6⟩ := this
    refine ⟨ofPos_inj h1, h2, h3, h4, (List.map_inj_right ?_).1 (vec_inj h5), ofPrio_inj h6⟩
    intro a b h; cases h; rfl
  · rintro ⟨h1, h2, h3, h4, h5, h6⟩
    simp only [ofError, h1, h2, h3, h4, h5, h6]

theorem ok_astError (e) : Ok (ofAstError e) := by
  refine ok_call (by decide) (by simp) ?_
  intro d hd
  simp only [List.mem_cons, List.not_mem_nil, or_false] at hd
  rcases hd with rfl | rfl
  · exact .str _
  · refine ok_opt ?_
    intro d hd
    obtain ⟨m, _, rfl⟩ := Option.map_eq_some_iff.1 hd
    exact .str m

theorem ofAstError_inj {e e'} (h : ofAstError e = ofAstError e') : e = e' := by
  have := (call_inj h).2
  simp only [List.cons.injEq, Dbg.str.injEq, and_true] at this
  have h2 := opt_inj this.2
  have : e.ctx = e'.ctx := by
    cases h3 : e.ctx <;> cases h4 : e'.ctx <;> simp_all
  cases e; cases e'; simp_all

/-- the same descriptions around the same error -/
inductive SamePegError (sty : Style) : PegError → PegError → Prop
  | root (d) : SamePegError sty (.peg d none) (.peg d none)
  | peg {d e e'} : SamePegError sty e e' → SamePegError sty (.peg d (some e)) (.peg d (some e'))
  | parser {p p'} : SameError sty p p' → SamePegError sty (.parser p) (.parser p')
  | ast (a) : SamePegError sty (.ast a) (.ast a)

theorem ok_pegError (sty) : ∀ e, Ok (ofPegError sty e)
  | .peg d none => by
    rw [ofPegError]
    refine ok_call (by decide) (by simp) ?_
    simp only [List.mem_singleton, forall_eq]
    refine ok_call (by decide) (by simp) ?_
    intro d hd
    simp only [List.mem_cons, List.not_mem_nil, or_false] at hd
    rcases hd with rfl | rfl
    · exact .str _
    · exact ok_opt (by simp)
  | .peg d (some e) => by
    rw [ofPegError]
    refine ok_call (by decide) (by simp) ?_
    simp only [List.mem_singleton, forall_eq]
    refine ok_call (by decide) (by simp) ?_
    intro d hd
    simp only [List.mem_cons, List.not_mem_nil, or_false] at hd
    rcases hd with rfl | rfl
    · exact .str _
    · exact ok_opt (by intro d hd; cases hd; exact ok_pegError sty e)
  | .parser e => by rw [ofPegError]; exact ok_call (by decide) (by simp) (by simpa using ok_error sty e)
  | .ast e => by rw [ofPegError]; exact ok_call (by decide) (by simp) (by simpa using ok_astError e)

theorem ofPegError_inj (sty) : ∀ e e', ofPegError sty e = ofPegError sty e' → SamePegError sty e e'
  | .peg d none, e', h => by
    match e', h with
    | .peg d' none, h =>
      simp only [ofPegError] at h; have := (call_inj h).2
      simp only [List.cons.injEq, and_true] at this
      have := (call_inj this).2
      simp only [List.cons.injEq, Dbg.str.injEq, and_true] at this
      rw [this]; exact .root _
    | .peg d' (some e'), h =>
      simp only [ofPegError] at h; have := (call_inj h).2
      simp only [List.cons.injEq, and_true] at this
      have := (call_inj this).2
      simp only [List.cons.injEq, Dbg.str.injEq, and_true] at this
      have := opt_inj this.2; cases this
    | .parser _, h => simp only [ofPegError] at h; have := call_inj h; simp at this
    | .ast _, h => simp only [ofPegError] at h; have := call_inj h; simp at this
  | .peg d (some e), e', h => by
    match e', h with
    | .peg d' none, h =>
      simp only [ofPegError] at h; have := (call_inj h).2
      simp only [List.cons.injEq, and_true] at this
      have := (call_inj this).2
      simp only [List.cons.injEq, Dbg.str.injEq, and_true] at this
      have := opt_inj this.2; cases this
    | .peg d' (some e'), h =>
      simp only [ofPegError] at h; have := (call_inj h).2
      simp only [List.cons.injEq, and_true] at this
      have := (call_inj this).2
      simp only [List.cons.injEq, Dbg.str.injEq, and_true] at this
      have h2 := opt_inj this.2
      simp only [Option.some.injEq] at h2
      rw [this.1]; exact .peg (ofPegError_inj sty e e' h2)
    | .parser _, h => simp only [ofPegError] at h; have := call_inj h; simp at this
    | .ast _, h => simp only [ofPegError] at h; have := call_inj h; simp at this
  | .parser p, e', h => by
    match e', h with
    | .peg _ none, h => simp only [ofPegError] at h; have := call_inj h; simp at this
    | .peg _ (some _), h => simp only [ofPegError] at h; have := call_inj h; simp at this
    | .ast _, h => simp only [ofPegError] at h; have := call_inj h; simp at this
    | .parser p', h =>
      simp only [ofPegError] at h; have := (call_inj h).2
      simp only [List.cons.injEq, and_true] at this
      exact .parser (ofError_inj.1 this)
  | .ast a, e', h => by
    match e', h with
    | .peg _ none, h => simp only [ofPegError] at h; have := call_inj h; simp at this
    | .peg _ (some _), h => simp only [ofPegError] at h; have := call_inj h; simp at this
    | .parser _, h => simp only [ofPegError] at h; have := call_inj h; simp at this
    | .ast a', h =>
      simp only [ofPegError] at h; have := (call_inj h).2
      simp only [List.cons.injEq, and_true] at this
      rw [ofAstError_inj this]; exact .ast _

/-! ### quoted texts are literals -/

theorem hexVal_digitChar (n : Nat) (h : n < 16) : hexVal (Nat.digitChar n) = some n := by
  have : ∀ i : Fin 16, hexVal (Nat.digitChar i) = some i.val := by decide
  exact this ⟨n, h⟩

theorem hexNum_toDigits : ∀ n : Nat, HexNum (Nat.toDigits 16 n) n := by
  intro n
  induction n using Nat.strongRecOn with
  | _ n ih =>
    rw [Nat.toDigits_eq_if (by omega)]
    split
    · have := HexNum.snoc .nil (hexVal_digitChar n (by assumption))
      simpa using this
    · have := HexNum.snoc (ih (n / 16) (by omega)) (hexVal_digitChar (n % 16) (by omega))
      rwa [Nat.div_add_mod] at this

theorem rustStr_escChar (sty : Style) (c : Char) {b v : Str} (h : RustStr b v) :
    RustStr (escChar sty '"' c ++ b) (c :: v) := by
  unfold escChar
  split; · rename_i hc; subst hc; exact .t h
  split; · rename_i hc; subst hc; exact .r h
  rename_i hr
  split; · rename_i hc; subst hc; exact .n h
  split; · rename_i hc; subst hc; exact .bs h
  rename_i hb
  split
  · rename_i hc
    have : c = '"' ∨ c = '\'' := by
      simp only [Bool.or_eq_true, decide_eq_true_eq, Bool.and_eq_true] at hc
      tauto
    rcases this with rfl | rfl
    · exact .dq h
    · exact .sq h
  rename_i hq
  split
  · rename_i hc
    simp only [Bool.and_eq_true, decide_eq_true_eq] at hc
    have : c = Char.ofNat 0 := toNat_inj (by rw [hc.1]; rfl)
    subst this
    exact .nul h
  split
  · exact .plain (fun hc => hq (by simp [hc])) hb hr h
  · have := RustStr.uni (c := c) (hexNum_toDigits c.toNat) Nat.length_toDigits_pos
      ((Nat.length_toDigits_le_iff (by omega) (by omega)).2 (by
        have : c.toNat < 1114112 := by
          rcases c.valid with hv | hv
          · exact Nat.lt_trans hv (by omega)
          · exact hv.2
        omega)) rfl h
    simpa using this

theorem rustStr_escStr (sty : Style) : ∀ s, RustStr (escStr sty '"' s) s
  | [] => .nil
  | c :: s => by rw [escStr]; exact rustStr_escChar sty c (rustStr_escStr sty s)

/-! ### displays of complaints -/

/-- the descriptions around a complaint: no `>` inside, and not the beginning of `AST(` or `Parser(` -/
def goodWord (w : Str) : Bool := !w.contains '>' && (w.head? == some 'c' || w.head? == some 'n' || w.head? == some 'o')

open Syntax in
/-- all the descriptions are good -/
def Good (o : Option Complaint) : Prop := ∀ p, o = some p → ∀ w ∈ p.path, goodWord w = true

open Syntax in
theorem good_none : Good none := by intro p h; cases h
open Syntax in
theorem good_within {ds o} (h : ∀ w ∈ ds, goodWord w = true) (ho : Good o) : Good (within ds o) := by
  intro p hp w hw
  obtain ⟨q, rfl, rfl⟩ := Option.map_eq_some_iff.1 hp
  rcases List.mem_append.1 hw with h1 | h1
  · exact h w h1
  · exact ho q rfl w h1
open Syntax in
theorem good_first {o o'} (h : Good o) (h' : Good o') : Good (first o o') := by
  cases o with
  | none => exact h'
  | some p => exact h
open Syntax in
theorem good_here {p : Complaint} (h : ∀ w ∈ p.path, goodWord w = true) : Good (some p) := by
  intro q hq; cases hq; exact h

open Syntax in
theorem good_lit (l : Lit) : Good l.fault := by
  unfold Lit.fault
  split
  · exact good_here (by decide)
  · exact good_none

open Syntax in
mutual
theorem good_atom : ∀ a : Syntax.Atom, Good a.fault
  | .lit l => by rw [Syntax.Atom.fault]; exact good_within (by decide) (good_lit l)
  | .par _ e _ => by rw [Syntax.Atom.fault]; exact good_within (by decide) (good_alt e)
  | .cls _ _ => by rw [Syntax.Atom.fault]; exact good_none
  | .ref _ => by rw [Syntax.Atom.fault]; exact good_none
  | .dot => by rw [Syntax.Atom.fault]; exact good_none
theorem good_item : ∀ i : Item, Good i.fault
  | .plain a => by rw [Item.fault]; exact good_within (by decide) (good_atom a)
  | .star a => by rw [Item.fault]; exact good_within (by decide) (good_atom a)
  | .plus a => by rw [Item.fault]; exact good_within (by decide) (good_atom a)
  | .opt a => by rw [Item.fault]; exact good_within (by decide) (good_atom a)
  | .not a => by rw [Item.fault]; exact good_within (by decide) (good_atom a)
theorem good_seq : ∀ q : Seq, Good q.fault
  | .err _ _ l _ => by rw [Seq.fault]; exact good_within (by decide) (good_lit l)
  | .item i t => by rw [Seq.fault]; exact good_within (by decide) (good_first (good_item i) (good_tail t))
theorem good_tail : ∀ t : Tail, Good t.fault
  | .nil => by rw [Tail.fault]; exact good_none
  | .item _ i t => by rw [Tail.fault]; exact good_within (by decide) (good_first (good_item i) (good_tail t))
  | .err _ _ _ l _ .nil => by rw [Tail.fault]; exact good_within (by decide) (good_lit l)
  | .err _ _ _ l _ (.item _ _ _) => by
    rw [Tail.fault]
    · exact good_first (good_within (by decide) (good_lit l)) (good_here (by simp))
    · simp
  | .err _ _ _ l _ (.err _ _ _ _ _ _) => by
    rw [Tail.fault]
    · exact good_first (good_within (by decide) (good_lit l)) (good_here (by simp))
    · simp
theorem good_alt : ∀ a : Alt, Good a.fault
  | .one s => by rw [Alt.fault]; exact good_within (by decide) (good_seq s)
  | .cons s _ _ a => by rw [Alt.fault]; exact good_within (by decide) (good_first (good_seq s) (good_alt a))
end

open Syntax in
mutual
theorem good_def : ∀ d : Def, Good d.fault
  | .rule _ _ _ e _ => by rw [Def.fault]; exact good_within (by decide) (good_alt e)
  | .module _ _ _ ds _ => by rw [Def.fault]; exact good_within (by decide) (good_defs ds)
theorem good_defs : ∀ ds : Defs, Good ds.fault
  | .one d => by rw [Defs.fault]; exact good_def d
  | .cons d ds => by rw [Defs.fault]; exact good_first (good_def d) (good_defs ds)
end

open Syntax in
theorem good_doc (d : Doc) : Good d.fault := by
  rw [Doc.fault]; exact good_within (by decide) (good_defs _)

/-- a list of descriptions can be read back from the text before something that begins like no description -/
theorem path_inj {a b : Str} (ha : ∀ t w r, goodWord w = true → a ++ t ≠ w ++ r) (hb : ∀ t w r, goodWord w = true → b ++ t ≠ w ++ r)
    {t t' : Str} : ∀ {p q : List Str}, (∀ w ∈ p, goodWord w = true) → (∀ w ∈ q, goodWord w = true) →
      (p.map fun d => d ++ c!" > ").flatten ++ (a ++ t) = (q.map fun d => d ++ c!" > ").flatten ++ (b ++ t') →
      p = q ∧ a ++ t = b ++ t'
  | [], [], _, _, h => ⟨rfl, by simpa using h⟩
  | [], w :: q, _, hq, h => by
    simp only [List.map_nil, List.flatten_nil, List.nil_append, List.map_cons, List.flatten_cons, List.append_assoc] at h
    exact absurd h (ha _ _ _ (hq w (by simp)))
  | w :: p, [], hp, _, h => by
    simp only [List.map_nil, List.flatten_nil, List.nil_append, List.map_cons, List.flatten_cons, List.append_assoc] at h
    exact absurd h.symm (hb _ _ _ (hp w (by simp)))
  | w :: p, w' :: q, hp, hq, h => by
    simp only [List.map_cons, List.flatten_cons, List.append_assoc] at h
    have g : ∀ w, goodWord w = true → ∀ c ∈ w ++ [' '], decide (c ≠ '>') = true := by
      intro w hw c hc
      simp only [goodWord, Bool.and_eq_true, Bool.not_eq_true', List.contains_eq_mem, decide_eq_false_iff_not] at hw
      rw [decide_eq_true_eq]
      rintro rfl
      rcases List.mem_append.1 hc with h1 | h1
      · exact hw.1 h1
      · simp at h1
    have h2 : (w ++ [' ']) ++ '>' :: ' ' :: ((p.map fun d => d ++ c!" > ").flatten ++ (a ++ t)) =
        (w' ++ [' ']) ++ '>' :: ' ' :: ((q.map fun d => d ++ c!" > ").flatten ++ (b ++ t')) := by simpa using h
    obtain ⟨h3, h4⟩ := span_inj (fun c => decide (c ≠ '>')) (g w (hp w (by simp))) (g w' (hq w' (by simp))) (by simp) (by simp) h2
    obtain ⟨h5, h6⟩ := path_inj ha hb (fun w h => hp w (List.mem_cons_of_mem _ h)) (fun w h => hq w (List.mem_cons_of_mem _ h)) (by simpa using h4)
    exact ⟨by rw [h5, List.append_cancel_right h3], h6⟩

theorem not_good {c : Char} {a t w r : Str} (h : c ≠ 'c' ∧ c ≠ 'n' ∧ c ≠ 'o') (hw : goodWord w = true) : c :: a ++ t ≠ w ++ r := by
  intro e
  cases w with
  | nil => simp [goodWord] at hw
  | cons x w =>
    simp only [List.cons_append, List.cons.injEq] at e
    simp only [goodWord, List.head?_cons, Bool.and_eq_true, Bool.or_eq_true, beq_iff_eq, Option.some.injEq] at hw
    rw [← e.1] at hw
    tauto

/-! ### descriptions -/

/-- every blank is followed by something, and not by `[` -/
def calm : Str → Bool
  | [] => true
  | [c] => c ≠ ' '
  | c :: d :: t => (c ≠ ' ' || d ≠ '[') && calm (d :: t)

theorem calm_cons {c : Char} {t : Str} (hc : c ≠ ' ') (h : calm t = true) : calm (c :: t) = true := by
  cases t with
  | nil => simp [calm, hc]
  | cons d t => simp [calm, hc, h]

theorem calm_blank {d : Char} {t : Str} (hd : d ≠ '[') (h : calm (d :: t) = true) : calm (' ' :: d :: t) = true := by
  simp [calm, hd, h]

theorem calm_append : ∀ {a b : Str}, (∀ c ∈ a, c ≠ ' ') → calm b = true → calm (a ++ b) = true
  | [], _, _, h => h
  | c :: a, b, h1, h => calm_cons (h1 c (by simp)) (calm_append (fun d hd => h1 d (by simp [hd])) h)

theorem calm_not_infix : ∀ (a t : Str), calm (a ++ ' ' :: '[' :: t) = false
  | [], t => by simp [calm]
  | [c], t => by simp [calm]
  | c :: d :: a, t => by
    have := calm_not_infix (d :: a) t
    simp only [List.cons_append] at this
    simp only [List.cons_append, calm, this, Bool.and_false]

theorem digit_ne_blank (n : Nat) : ∀ c ∈ Nat.toDigits 16 n, c ≠ ' ' := by
  intro c hc h
  subst h
  have key : ∀ n : Nat, ' ' ∉ Nat.toDigits 16 n := by
    intro n
    induction n using Nat.strongRecOn with
    | _ n ih =>
      have d : ∀ k < 16, ' ' ≠ Nat.digitChar k := by
        intro k hk e
        have := hexVal_digitChar k hk
        rw [← e] at this
        revert this
        simp [hexVal]
      rw [Nat.toDigits_eq_if (by omega)]
      split
      · simp
      · simp only [List.mem_append, List.mem_singleton, not_or]
        exact ⟨ih _ (by omega), d _ (by omega)⟩
  exact key n hc

theorem calm_escChar (sty : Style) (q c : Char) {d : Char} {t : Str} (hd : d ≠ '[') (h : calm (d :: t) = true) :
    calm (escChar sty q c ++ d :: t) = true := by
  unfold escChar
  split; · exact calm_append (by decide) h
  split; · exact calm_append (by decide) h
  split; · exact calm_append (by decide) h
  split; · exact calm_append (by decide) h
  split
  · refine calm_cons (by decide) ?_
    by_cases hc : c = ' '
    · subst hc; exact calm_blank hd h
    · exact calm_cons hc h
  split; · exact calm_append (by decide) h
  split
  · by_cases hc : c = ' '
    · subst hc; exact calm_blank hd h
    · exact calm_cons hc h
  · rw [List.append_assoc, List.append_assoc]
    refine calm_append (by decide) (calm_append (digit_ne_blank _) (calm_append (by decide) h))

theorem calm_range (sty : Style) (r : Char × Char) {t : Str} (h : calm t = true) :
    calm (fmt sty none (call [] [.chr r.1, .chr r.2]) ++ t) = true := by
  have : fmt sty none (call [] [.chr r.1, .chr r.2]) ++ t =
      '(' :: '\'' :: (escChar sty '\'' r.1 ++ '\'' :: ',' :: ' ' :: '\'' :: (escChar sty '\'' r.2 ++ '\'' :: ')' :: t)) := by
    simp [call, fmt, fmtEntry, fmtEntries, opening, closing, separator, newline]
  rw [this]
  refine calm_cons (by decide) (calm_cons (by decide) (calm_escChar sty _ _ (by decide) (calm_cons (by decide) (calm_cons (by decide)
    (calm_blank (by decide) (calm_cons (by decide) (calm_escChar sty _ _ (by decide) (calm_cons (by decide) (calm_cons (by decide) h)))))))))

/-- the text of the ranges: a bracket, and then no other one that could begin the ranges -/
theorem ranges_calm (sty : Style) (rs : List (Char × Char)) : ∃ t, fmt sty none (ofRanges rs) = '[' :: t ∧ calm t = true := by
  cases rs with
  | nil => exact ⟨[']'], by simp [ofRanges, vec, fmt], by decide⟩
  | cons r rs =>
    refine ⟨_, by simp [ofRanges, vec, fmt, opening, newline]; rfl, ?_⟩
    rw [fmtEntry]
    refine calm_range sty r ?_
    induction rs with
    | nil => simp [fmtEntries, closing, newline, calm]
    | cons r' rs ih =>
      simp only [List.map_cons, Function.comp, fmtEntries, fmtEntry, separator, Option.isNone_none, if_true, List.append_assoc]
      refine calm_cons (by decide) ?_
      have := calm_range sty r' ih
      have e : ∃ x, fmt sty none (call [] [.chr r'.1, .chr r'.2]) = '(' :: x := ⟨_, by simp [call, fmt, opening, newline]; rfl⟩
      obtain ⟨x, e⟩ := e
      simp only [Option.map_none]
      rw [e] at this ⊢
      exact calm_blank (by decide) this

/-- is the text of an `error(...)` -/
def Custom : Descr → Prop
  | .custom _ => True
  | _ => False

theorem mtch_inj {sty : Style} {cs cs' : Str} {rs rs'} (h : cs ++ ' ' :: fmt sty none (ofRanges rs) = cs' ++ ' ' :: fmt sty none (ofRanges rs')) :
    cs = cs' ∧ rs = rs' := by
  have aux : ∀ {cs cs' rs rs'} (as : Str), cs' = cs ++ as → ' ' :: fmt sty none (ofRanges rs) = as ++ ' ' :: fmt sty none (ofRanges rs') →
      cs = cs' ∧ rs = rs' := by
    intro cs cs' rs rs' as h1 h2
    obtain ⟨t, ht, hc⟩ := ranges_calm sty rs
    obtain ⟨t', ht', hc'⟩ := ranges_calm sty rs'
    match as, h1, h2 with
    | [], h1, h2 =>
      simp only [List.nil_append, List.cons.injEq, true_and] at h2
      exact ⟨by simp [h1], ofRanges_inj (fmt_inj (ok_ranges _) (ok_ranges _) h2)⟩
    | [c], h1, h2 =>
      rw [ht] at h2
      simp at h2
    | c :: d :: as, h1, h2 =>
      rw [ht, ht'] at h2
      simp only [List.cons_append, List.cons.injEq] at h2
      rw [h2.2.2, calm_not_infix] at hc
      cases hc
  rcases List.append_eq_append_iff.1 h with ⟨as, h1, h2⟩ | ⟨as, h1, h2⟩
  · exact aux as h1 h2
  · have := aux as h1 h2
    exact ⟨this.1.symm, this.2.symm⟩

theorem descrText_inj {sty : Style} {d d' : Descr} (hd : ¬ Custom d) (hd' : ¬ Custom d')
    (h : descrText sty d = descrText sty d') : d = d' := by
  unfold descrText at h
  cases d <;> cases d' <;> first | rfl | exact absurd trivial hd | exact absurd trivial hd' | skip
  case literal.literal a b =>
    simp only [Descr.render, List.cons_append, List.nil_append, List.cons.injEq, true_and] at h
    rw [List.append_cancel_right h]
  case mtch.mtch =>
    simp only [Descr.render, List.append_assoc, List.cons_append, List.nil_append, List.cons.injEq, true_and] at h
    obtain ⟨rfl, rfl⟩ := mtch_inj h
    rfl
  case missingRule.missingRule =>
    simp only [Descr.render, List.cons_append, List.nil_append, List.cons.injEq, true_and] at h
    rw [h]
  all_goals simp [Descr.render] at h

end Debug
end DP
