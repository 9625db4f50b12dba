/-
Names, literals and classes of the concrete syntax, read by the built-in grammar and by the consumers.
-/
import Verif.Proofs.SynLayout
import Verif.Spec.Complaint

namespace DP
open Spec PegRules Spec.Syntax Peg

/-! ### What a consumer gives -/

/-- The consumer gives the value and stops at `tail` with the context unchanged, or complains about the fault. -/
def Gives {α : Type} (o : Option α) (x : Option Complaint) (tail : List FNode) (ctx : Context) (r : Res α) : Prop :=
  match o, x with
  | some v, none => r = .ok (v, tail, ctx)
  | none, some p => r = .err p.error
  | _, _ => False

/-- with enough fuel, on the flat nodes `fs` followed by anything -/
def Runs {α : Type} (run : Nat → List FNode → Context → Res α) (fs : List FNode) (o : Option α) (x : Option Complaint) : Prop :=
  ∃ F, ∀ f, F ≤ f → ∀ tail ctx, Gives o x tail ctx (run f (fs ++ tail) ctx)

theorem within_within (a b : List Str) (x : Option Complaint) : within a (within b x) = within (a ++ b) x := by
  cases x <;> simp [within, Complaint.within]

section
variable {α β : Type} {o : Option α} {o' : Option β} {x x' : Option Complaint} {tail tail' : List FNode} {ctx ctx' : Context}

theorem Gives.some {v : α} : Gives (some v) none tail ctx (.ok (v, tail, ctx)) := rfl

theorem Gives.cases {r : Res α} (h : Gives o x tail ctx r) :
    (∃ v, o = Option.some v ∧ x = none ∧ r = .ok (v, tail, ctx)) ∨ ∃ p, o = none ∧ x = Option.some p ∧ r = .err p.error := by
  cases o with
  | none =>
    cases x with
    | none => exact h.elim
    | some p => exact Or.inr ⟨p, rfl, rfl, h⟩
  | some v =>
    cases x with
    | none => exact Or.inl ⟨v, rfl, rfl, h⟩
    | some p => exact h.elim

theorem Gives.bind {r : Res α} {k : α × List FNode × Context → Res β} (h : Gives o x tail ctx r)
    (hk : ∀ v, o = Option.some v → x = none → Gives o' x' tail' ctx' (k (v, tail, ctx)))
    (hn : ∀ p, o = none → x = Option.some p → o' = none ∧ x' = Option.some p) :
    Gives o' x' tail' ctx' (r >>= k) := by
  rcases h.cases with ⟨v, ho, hx, rfl⟩ | ⟨p, ho, hx, rfl⟩
  · exact hk v ho hx
  · obtain ⟨h1, h2⟩ := hn p ho hx
    rw [h1, h2]
    rfl

theorem Gives.push {d : Str} {r : Res α} (h : Gives o x tail ctx r) : Gives o (within [d] x) tail ctx (pushErr d r) := by
  rcases h.cases with ⟨v, rfl, rfl, rfl⟩ | ⟨p, rfl, rfl, rfl⟩
  · rfl
  · rfl

theorem Gives.consuming {name : Str} {ns : List Node} {k : List FNode → Context → Res α} (hb : name ∉ blanks)
    (h : Gives o x (.endRule name :: tail) ctx (k (flatList ns ++ .endRule name :: tail) ctx)) :
    Gives o (within [c!"consuming " ++ name] x) tail ctx (consumingRule name (flatRule name ns ++ tail) ctx k) := by
  unfold consumingRule flatRule
  rw [if_neg hb]
  have e : FNode.beginRule name :: flatList ns ++ [.endRule name] ++ tail =
      .beginRule name :: (flatList ns ++ .endRule name :: tail) := by simp
  rw [e]
  refine Gives.push ?_
  rw [start_ok]
  refine Gives.bind (o := o) (x := x) (tail := .endRule name :: tail) (ctx := ctx) h ?_ (fun p h h' => ⟨h, h'⟩)
  intro v hv hx
  subst hv hx
  show Gives (Option.some v) none tail ctx (liftA (Flat.consumeNodeEndRuleName name (.endRule name :: tail)) >>= _)
  rw [end_ok]
  rfl

end

/-! ### Names -/

def SymChar (c : Char) : Prop := WordChar c ∨ c = '\'' ∨ c = '"'

instance (c : Char) : Decidable (SymChar c) := by unfold SymChar; infer_instance

theorem classRep_ok {G : Str → Option Expr} {cs rs} {r : Str} (hr : ∀ c, r.head? = some c → ¬ InClass cs rs c) : ∀ l : Str,
    (∀ c ∈ l, InClass cs rs c) →
    Peg G (.rep (.simple (.mtch cs rs)) 0 none) (l ++ r) (.ok r (l.map fun c => .val [c]))
  | [], _ => .rep_stop (by simp) (classF hr)
  | c :: l, h => .rep_more (by simp) (.class_ok _ _ c _ (h c List.mem_cons_self))
      (classRep_ok hr l fun d hd => h d (List.mem_cons_of_mem _ hd))

def symFlat (y : Str) : List FNode := [.beginRule c!"symbol", .val y, .endRule c!"symbol"]

theorem symbol_ok {y r} (h : ValidSymbol y) (hr : ∀ c, r.head? = some c → ¬ SymChar c) : ∃ ns,
    Peg GP (.ruleName c!"symbol") (y ++ r) (.ok r [.rule c!"symbol" ns]) ∧ flatRule c!"symbol" ns = symFlat y := by
  obtain ⟨c, cs, rfl, hc, hcs⟩ := h
  have h1 := classRep_ok (G := GP) (cs := c!"_'\"") (rs := [('a', 'z'), ('A', 'Z'), ('0', '9')]) (r := r)
    (fun d hd hi => hr d hd ((inClass_word2 d).1 hi)) cs (fun d hd => (inClass_word2 d).2 (hcs d hd))
  refine ⟨_, .call_ok gp_symbol (andC (.class_ok _ _ c _ ((inClass_word c).2 hc)) (and1 h1)), ?_⟩
  unfold flatRule
  rw [if_neg (by decide)]
  have := flatList_chars (l := c :: cs) (by simp)
  rw [List.map_cons] at this
  rw [List.singleton_append, this]
  rfl

theorem symbol_fail {r : Str} (h : ∀ c, r.head? = some c → ¬ WordChar c) : Peg GP (.ruleName c!"symbol") r .fail :=
  .call_fail gp_symbol (.and_fail (classF fun c hc hi => h c hc ((inClass_word c).1 hi)))

theorem symbol_run (y tail ctx) : consumeSymbol (symFlat y ++ tail) ctx = .ok (y, tail, ctx) := rfl

/-- what follows a name does not continue it -/
def NameEnd (r : Str) : Prop := (∀ c, r.head? = some c → ¬ SymChar c) ∧
  ∀ t, r = '.' :: t → ∀ c, t.head? = some c → ¬ WordChar c

theorem dot_sym {r : Str} : ∀ c, ('.' :: r).head? = some c → ¬ SymChar c := by
  intro c hc
  cases hc
  decide

def dotFlat (y : Str) : List FNode := .val c!"." :: symFlat y

theorem dots_ok {r : Str} (hr : NameEnd r) {t} (h : DottedTail t) : ∃ (ys : List Str) (ns : List Node),
    (∀ y ∈ ys, ValidSymbol y) ∧ t = ys.flatMap (fun y => '.' :: y) ∧
    Peg GP (.rep (.and [.simple (.literal c!"."), .ruleName c!"symbol"]) 0 none) (t ++ r) (.ok r ns) ∧
    flatList ns = ys.flatMap dotFlat := by
  induction h with
  | nil =>
    refine ⟨[], [], by simp, rfl, .rep_stop (by simp) ?_, flatList_nil⟩
    by_cases hd : r.head? = some '.'
    · cases r with
      | nil => simp at hd
      | cons c r =>
        cases hd
        exact .and_tail_fail lit1 (.and_fail (symbol_fail (hr.2 r rfl)))
    · exact .and_fail (litF hd)
  | @cons y t hy ht ih =>
    obtain ⟨ys, ns, h1, rfl, h3, h5⟩ := ih
    have h6 : ∀ c, (ys.flatMap (fun y => '.' :: y) ++ r).head? = some c → ¬ SymChar c := by
      cases ys with
      | nil => exact hr.1
      | cons z ys => exact dot_sym
    obtain ⟨n2, h7, h8⟩ := symbol_ok hy h6
    have h9 : Peg GP (.and [.simple (.literal c!"."), .ruleName c!"symbol"]) ('.' :: y ++ ys.flatMap (fun y => '.' :: y) ++ r)
        (.ok (ys.flatMap (fun y => '.' :: y) ++ r) [.val c!".", .rule c!"symbol" n2]) := by
      rw [List.append_assoc]
      exact andC lit1 (and1 h7)
    refine ⟨y :: ys, _, ?_, by simp, .rep_more (by simp) h9 h3, ?_⟩
    · intro z hz
      rcases List.mem_cons.mp hz with rfl | hz
      · exact hy
      · exact h1 z hz
    · rw [List.cons_append, List.singleton_append, flatList_val_rule, h8, h5]
      rfl

theorem dots_run : ∀ (ys : List Str) f acc tail ctx, ys.length < f → (∀ v t, tail ≠ .val v :: t) → tail ≠ [] →
    recConsumeDotSymbol f acc (ys.flatMap dotFlat ++ tail) ctx = .ok (acc ++ ys.flatMap (fun y => '.' :: y), tail, ctx)
  | [], f, acc, tail, ctx, hf, ht, hne => by
    obtain ⟨f, rfl⟩ : ∃ g, f = g + 1 := ⟨f - 1, by simp at hf; omega⟩
    rw [recConsumeDotSymbol, List.flatMap_nil, List.nil_append, List.flatMap_nil, List.append_nil]
    cases tail with
    | nil => exact absurd rfl hne
    | cons x t =>
      cases x with
      | val v => exact absurd rfl (ht v t)
      | _ => rfl
  | y :: ys, f, acc, tail, ctx, hf, ht, hne => by
    obtain ⟨f, rfl⟩ : ∃ g, f = g + 1 := ⟨f - 1, by simp at hf; omega⟩
    have h := dots_run ys f (acc ++ c!"." ++ y) tail ctx (by simp at hf; omega) ht hne
    have e : acc ++ (y :: ys).flatMap (fun y => '.' :: y) = acc ++ c!"." ++ y ++ ys.flatMap (fun y => '.' :: y) := by simp
    rw [recConsumeDotSymbol, e, ← h]
    rfl

/-- names -/
theorem name_reads {n r} (h : ValidName n) (hr : NameEnd r) : ∃ ns,
    Peg GP (.ruleName c!"rule_name") (n ++ r) (.ok r [.rule c!"rule_name" ns]) ∧
    Runs consumeRuleName (flatRule c!"rule_name" ns) (some n) none := by
  obtain ⟨d, y, t, hd, hy, ht, rfl⟩ := h
  obtain ⟨ys, n3, h1, rfl, h3, h5⟩ := dots_ok hr ht
  have h6 : ∀ c, (ys.flatMap (fun y => '.' :: y) ++ r).head? = some c → ¬ SymChar c := by
    cases ys with
    | nil => exact hr.1
    | cons z ys => exact dot_sym
  obtain ⟨n2, h7, h8⟩ := symbol_ok hy h6
  rw [List.append_assoc, List.append_assoc]
  rcases hd with rfl | rfl
  · have h9 : Peg GP (.rep (.simple (.literal c!".")) 0 (some 1)) (y ++ (ys.flatMap (fun y => '.' :: y) ++ r))
        (.ok (y ++ (ys.flatMap (fun y => '.' :: y) ++ r)) []) := by
      refine opt_none (litF ?_)
      obtain ⟨c, cs, rfl, hc, _⟩ := hy
      rintro h
      cases h
      exact absurd hc (by decide)
    refine ⟨_, .call_ok gp_rule_name (andC h9 (andC h7 (and1 h3))), ys.length + 1, ?_⟩
    intro f hf tail ctx
    refine Gives.consuming (x := none) (by decide) ?_
    have e : flatList ([] ++ ([.rule c!"symbol" n2] ++ n3)) = symFlat y ++ ys.flatMap dotFlat := by
      rw [List.nil_append, List.singleton_append, flatList_rule, h8, h5]
    rw [e]
    show _ = _
    have := dots_run ys f [] (.endRule c!"rule_name" :: tail) ctx (by omega) (by simp) (by simp)
    rw [List.nil_append] at this
    show (recConsumeDotSymbol f [] (ys.flatMap dotFlat ++ .endRule c!"rule_name" :: tail) ctx >>= _) = _
    rw [this]
    rfl
  · refine ⟨_, .call_ok gp_rule_name (andC (opt_some lit1) (andC h7 (and1 h3))), ys.length + 1, ?_⟩
    intro f hf tail ctx
    refine Gives.consuming (x := none) (by decide) ?_
    have e : flatList ([.val c!"."] ++ ([.rule c!"symbol" n2] ++ n3)) = .val c!"." :: (symFlat y ++ ys.flatMap dotFlat) := by
      rw [List.singleton_append, List.singleton_append, flatList_val_rule, h8, h5]
    rw [e]
    show _ = _
    have := dots_run ys f [] (.endRule c!"rule_name" :: tail) ctx (by omega) (by simp) (by simp)
    rw [List.nil_append] at this
    show (recConsumeDotSymbol f [] (ys.flatMap dotFlat ++ .endRule c!"rule_name" :: tail) ctx >>= _) = _
    rw [this]
    rfl

theorem name_fail {r : Str} (h : ∀ c, r.head? = some c → ¬ WordChar c) (h2 : ∀ t, r = '.' :: t → ∀ c, t.head? = some c → ¬ WordChar c) :
    Peg GP (.ruleName c!"rule_name") r .fail := by
  refine .call_fail gp_rule_name ?_
  by_cases hd : r.head? = some '.'
  · cases r with
    | nil => simp at hd
    | cons c r =>
      cases hd
      exact .and_tail_fail (opt_some lit1) (.and_fail (symbol_fail (h2 r rfl)))
  · exact .and_tail_fail (opt_none (litF hd)) (.and_fail (symbol_fail h))

/-- names of modules -/
theorem modName_reads {n r} (h : ValidSymbol n) (hr : ∀ c, r.head? = some c → ¬ SymChar c) : ∃ ns,
    Peg GP (.ruleName c!"mod_name") (n ++ r) (.ok r [.rule c!"mod_name" ns]) ∧
    ∀ tail ctx, consumeModName (flatRule c!"mod_name" ns ++ tail) ctx = .ok (n, tail, ctx) := by
  obtain ⟨n2, h7, h8⟩ := symbol_ok h hr
  refine ⟨_, .call_ok gp_mod_name h7, ?_⟩
  intro tail ctx
  unfold flatRule
  rw [if_neg (by decide), flatList_rule, h8, flatList_nil]
  rfl

/-! ### Literals -/

theorem sq_ok {r : Str} : Peg GP (.ruleName c!"_'") ('\'' :: r) (.ok r [.rule c!"_'" [.val c!"'"]]) := .call_ok gp_sq lit1

theorem sq_fail {r : Str} (h : r.head? ≠ some '\'') : Peg GP (.ruleName c!"_'") r .fail := .call_fail gp_sq (litF h)

theorem dq_ok {r : Str} : Peg GP (.ruleName c!"_\"") ('"' :: r) (.ok r [.rule c!"_\"" [.val c!"\""]]) := .call_ok gp_dq lit1

theorem dq_fail {r : Str} (h : r.head? ≠ some '"') : Peg GP (.ruleName c!"_\"") r .fail := .call_fail gp_dq (litF h)

theorem doubled_eq : ∀ s, doubleBackslashes s = doubled s
  | [] => rfl
  | c :: s => by
    rw [doubleBackslashes, doubled_eq s]
    by_cases h : c = '\\'
    · rw [if_pos h]; simp [doubled, h]
    · rw [if_neg h]; simp [doubled, h]

theorem single_reads {b : Str} (h : '\'' ∉ b) (r : Str) : ∃ ns,
    Peg GP (.ruleName c!"literal") ((Lit.single b).str ++ r) (.ok r [.rule c!"literal" ns]) ∧
    Runs consumeLiteralString (flatRule c!"literal" ns) (Lit.single b).val (Lit.single b).fault := by
  have h1 := chars_ok (stop := .ruleName c!"_'") (sq_ok (r := r)) b ?_
  · have h2 : Peg GP (.ruleName c!"lit_noesc") ((Lit.single b).str ++ r) (.ok r [.rule c!"lit_noesc"
        ([.rule c!"_'" [.val c!"'"]] ++ ((b.map fun c => .val [c]) ++ [.rule c!"_'" [.val c!"'"]]))]) := by
      have e : (Lit.single b).str ++ r = '\'' :: (b ++ '\'' :: r) := by simp [Lit.str]
      rw [e]
      exact .call_ok gp_lit_noesc (andC sq_ok (andC h1 (and1 sq_ok)))
    refine ⟨_, .call_ok gp_literal (.or_ok h2), 0, ?_⟩
    intro f _ tail ctx
    cases b with
    | nil =>
      refine Gives.consuming (x := some ⟨[c!"consuming lit_noesc"], c!"expected Val node"⟩) (by decide) ?_
      rw [flatList_rule, flatList_nil, List.append_nil, flatRule, if_neg (by decide), List.singleton_append, flatList_rule,
        List.map_nil, List.nil_append, flatList_rule, flatList_nil]
      rfl
    | cons c b =>
      refine Gives.consuming (x := none) (by decide) ?_
      rw [flatList_rule, flatList_nil, List.append_nil, flatRule, if_neg (by decide), List.singleton_append, flatList_rule]
      have h3 := flatList_vals (vs := (c :: b).map fun c => [c]) (rest := [.rule c!"_'" [.val c!"'"]]) (by simp) (by simp)
      rw [List.map_map] at h3
      have h4 : (Node.val ∘ fun c : Char => [c]) = fun c => Node.val [c] := rfl
      rw [h4, flatten_singletons] at h3
      rw [h3, flatList_rule, flatList_nil, flatRule, if_neg (by decide), flatList_val (by simp), flatList_nil]
      show _ = _
      rw [← doubled_eq]
      rfl
  · intro x y hxy hy
    refine sq_fail ?_
    cases y with
    | nil => exact absurd rfl hy
    | cons c y =>
      have hc : c ∈ b := by rw [hxy]; simp
      simp only [List.cons_append, List.head?_cons, ne_eq, Option.some.injEq]
      rintro rfl
      exact h hc

/-- the node of a piece -/
def pieceNode : Piece → Node
  | .esc e => .rule c!"esc_char" [.val ['\\', e.letter]]
  | .hex h l => .rule c!"hex_char" [.val c!"\\0x", .val [h], .val [l]]
  | .plain c => .val [c]

abbrev ePiece : Expr := .or [.ruleName c!"esc_char", .ruleName c!"hex_char", .and [.not (.ruleName c!"_\""), .simple .dot]]

theorem escTail_iff (t : Str) : EscTail t ↔ (∃ x u, t = x :: u ∧ (x = 'r' ∨ x = 'n' ∨ x = 't' ∨ x = '\\' ∨ x = '"')) ∨
    ∃ h l u, t = '0' :: 'x' :: h :: l :: u ∧ HexDigit h ∧ HexDigit l := by
  constructor
  · intro h
    unfold EscTail at h
    split at h
    · exact Or.inl ⟨_, _, rfl, by simp⟩
    · exact Or.inl ⟨_, _, rfl, by simp⟩
    · exact Or.inl ⟨_, _, rfl, by simp⟩
    · exact Or.inl ⟨_, _, rfl, by simp⟩
    · exact Or.inl ⟨_, _, rfl, by simp⟩
    · exact Or.inr ⟨_, _, _, rfl, h⟩
    · exact h.elim
  · rintro (⟨x, u, rfl, h⟩ | ⟨h, l, u, rfl, hh⟩)
    · rcases h with rfl | rfl | rfl | rfl | rfl <;> trivial
    · exact hh

theorem esc_fail {r : Str} (h : ∀ x t, r = '\\' :: x :: t → ¬ (x = 'r' ∨ x = 'n' ∨ x = 't' ∨ x = '\\' ∨ x = '"')) :
    Peg GP (.ruleName c!"esc_char") r .fail := by
  have h1 : ∀ x, (x = 'r' ∨ x = 'n' ∨ x = 't' ∨ x = '\\' ∨ x = '"') → Peg GP (.simple (.literal ['\\', x])) r .fail := by
    intro x hx
    refine litF2 ?_
    intro t ht hh
    cases t with
    | nil => simp at hh
    | cons y t =>
      simp at hh
      subst hh
      exact h _ _ ht hx
  exact .call_fail gp_esc_char (.or_next (h1 'r' (by simp)) (.or_next (h1 'n' (by simp))
    (.or_next (h1 't' (by simp)) (.or_next (h1 '\\' (by simp)) (.or_next (h1 '"' (by simp)) (.or_nil _))))))

theorem hex_fail {r : Str} (h : ∀ t, r = '\\' :: t → ¬ EscTail t) : Peg GP (.ruleName c!"hex_char") r .fail := by
  refine .call_fail gp_hex_char ?_
  by_cases hp : c!"\\0x" <+: r
  · obtain ⟨t, rfl⟩ := hp
    have h1 := h ('0' :: 'x' :: t) rfl
    cases t with
    | nil => exact .and_tail_fail litOk (.and_fail (.class_end _ _))
    | cons a t =>
      by_cases ha : HexDigit a
      · cases t with
        | nil => exact .and_tail_fail litOk (.and_tail_fail (.class_ok _ _ a _ ((inClass_hex a).2 ha)) (.and_fail (.class_end _ _)))
        | cons b t =>
          have hb : ¬ HexDigit b := fun hb => h1 ⟨ha, hb⟩
          exact .and_tail_fail litOk (.and_tail_fail (.class_ok _ _ a _ ((inClass_hex a).2 ha))
            (.and_fail (.class_fail _ _ _ _ (fun hi => hb ((inClass_hex b).1 hi)))))
      · exact .and_tail_fail litOk (.and_fail (.class_fail _ _ _ _ (fun hi => ha ((inClass_hex a).1 hi))))
  · exact .and_fail (.lit_fail _ _ hp)

theorem esc_ok (e : Esc) (r : Str) : Peg GP (.ruleName c!"esc_char") ((Piece.esc e).str ++ r) (.ok r [pieceNode (.esc e)]) := by
  have h : ∀ {x y : Char}, x ≠ y → Peg GP (.simple (.literal ['\\', x])) ('\\' :: y :: r) .fail := by
    intro x y hxy
    refine litF2 ?_
    intro t ht
    simp only [List.cons.injEq, true_and] at ht
    subst ht
    simpa using Ne.symm hxy
  refine .call_ok gp_esc_char ?_
  cases e with
  | cr => exact .or_ok (litOk (l := c!"\\r"))
  | nl => exact .or_next (h (by decide)) (.or_ok (litOk (l := c!"\\n")))
  | tab => exact .or_next (h (by decide)) (.or_next (h (by decide)) (.or_ok (litOk (l := c!"\\t"))))
  | bs =>
    exact .or_next (h (by decide)) (.or_next (h (by decide)) (.or_next (h (by decide)) (.or_ok (litOk (l := c!"\\\\")))))
  | dq =>
    exact .or_next (h (by decide)) (.or_next (h (by decide)) (.or_next (h (by decide)) (.or_next (h (by decide))
      (.or_ok (litOk (l := c!"\\\""))))))

theorem escTail_more (p r : Str) (h : ¬ EscTail (p ++ ['"'])) : ¬ EscTail (p ++ '"' :: r) := by
  intro h'
  apply h
  rw [escTail_iff] at h' ⊢
  rcases h' with ⟨x, u, e, hx⟩ | ⟨a, b, u, e, ha, hb⟩
  · left
    cases p with
    | nil => exact ⟨_, _, rfl, by simp⟩
    | cons y p => cases e; exact ⟨_, _, rfl, hx⟩
  · right
    match p, e with
    | [], e => cases e
    | [x], e => cases e
    | [x, y], e =>
      cases e
      exact absurd ha (by decide)
    | [x, y, z], e =>
      cases e
      exact absurd hb (by decide)
    | x :: y :: z :: w :: p, e => cases e; exact ⟨_, _, _, rfl, ha, hb⟩

theorem pieces_ok {r : Str} : ∀ ps, PiecesOK ps →
    Peg GP (.rep ePiece 0 none) (piecesStr ps ++ '"' :: r) (.ok ('"' :: r) (ps.map pieceNode))
  | [], _ => by
    refine .rep_stop (by simp) (.or_next (esc_fail ?_) (.or_next (hex_fail ?_) (.or_next (.and_fail (.not_ok dq_ok)) (.or_nil _))))
    · intro x t ht
      cases ht
    · intro t ht
      cases ht
  | .esc e :: ps, h => by
    rw [piecesStr, List.append_assoc]
    exact .rep_more (by simp) (.or_ok (esc_ok e _)) (pieces_ok ps h)
  | .hex a b :: ps, h => by
    rw [piecesStr, List.append_assoc]
    refine .rep_more (ns := [pieceNode (.hex a b)]) (by simp) (.or_next (esc_fail ?_) (.or_ok ?_)) (pieces_ok ps h.2.2)
    · intro x t ht
      simp only [Piece.str, List.cons_append, List.cons.injEq, true_and] at ht
      rw [← ht.1]
      decide
    · refine .call_ok gp_hex_char ?_
      exact andC (litOk (l := c!"\\0x")) (andC (.class_ok _ _ a _ ((inClass_hex a).2 h.1)) (and1 (.class_ok _ _ b _ ((inClass_hex b).2 h.2.1))))
  | .plain c :: ps, h => by
    rw [piecesStr, List.append_assoc]
    have he : ∀ t, [c] ++ (piecesStr ps ++ '"' :: r) = '\\' :: t → ¬ EscTail t := by
      intro t ht
      simp only [List.cons_append, List.nil_append, List.cons.injEq] at ht
      rw [← ht.2]
      exact escTail_more _ _ (h.2.1 ht.1)
    refine .rep_more (by simp) (.or_next (esc_fail fun x t hx hh => he _ hx ((escTail_iff _).2 (Or.inl ⟨_, _, rfl, hh⟩))) (.or_next (hex_fail he) (.or_ok
      (andC (.not_fail (dq_fail ?_)) (and1 (.dot_ok c _)))))) (pieces_ok ps h.2.2)
    simpa [Piece.str] using h.1

theorem hex_run {a b : Char} (ha : HexDigit a) (hb : HexDigit b) (tail ctx) :
    consumeHexChar (.beginRule c!"hex_char" :: .val ['\\', '0', 'x', a, b] :: .endRule c!"hex_char" :: tail) ctx =
      .ok ([Char.ofNat (16 * digitVal a + digitVal b)], tail, ctx) := by
  have hd : ∀ {c}, HexDigit c → hexDigit c = some (digitVal c) ∧ digitVal c < 16 := by
    intro c hc
    obtain ⟨d, h1, h2⟩ := hexDigit_of hc
    have : d = digitVal c := by
      have e0 : '0'.toNat = 48 := rfl
      have e9 : '9'.toNat = 57 := rfl
      have eA : 'A'.toNat = 65 := rfl
      have eF : 'F'.toNat = 70 := rfl
      have ea : 'a'.toNat = 97 := rfl
      unfold hexDigit at h1
      unfold digitVal
      rcases hc with hc | hc
      · rw [if_pos hc] at h1
        rw [if_pos hc.2]
        cases h1
        rfl
      · have h3 : 'A'.toNat ≤ c.toNat := hc.1
        have h4 : c.toNat ≤ 'F'.toNat := hc.2
        have n1 : ¬ c ≤ '9' := by
          intro h
          have : c.toNat ≤ '9'.toNat := h
          omega
        have n2 : ¬ ('a' ≤ c ∧ c ≤ 'f') := by
          rintro ⟨h, _⟩
          have : 'a'.toNat ≤ c.toNat := h
          omega
        rw [if_neg (fun h => n1 h.2), if_neg n2, if_pos hc] at h1
        rw [if_neg n1]
        cases h1
        omega
    exact ⟨this ▸ h1, this ▸ h2⟩
  obtain ⟨h1, l1⟩ := hd ha
  obtain ⟨h2, l2⟩ := hd hb
  have e : dropBytes 3 ['\\', '0', 'x', a, b] = some [a, b] := by
    have e1 : Char.utf8Size '\\' = 1 := rfl
    have e2 : Char.utf8Size '0' = 1 := rfl
    have e3 : Char.utf8Size 'x' = 1 := rfl
    simp [dropBytes, e1, e2, e3]
  have hp : a ≠ '+' := by
    rintro rfl
    exact absurd ha (by decide)
  have e' : u8FromStrRadix16 [a, b] = some (16 * digitVal a + digitVal b) := by
    have : u8FromStrRadix16 [a, b] = u8Digits 0 [a, b] := by
      unfold u8FromStrRadix16
      split <;> simp_all
    rw [this]
    simp only [u8Digits, h1, h2]
    rw [if_pos (by omega), if_pos (by omega), Nat.zero_mul, Nat.zero_add, Nat.mul_comm]
  have h3 : (match dropBytes 3 ['\\', '0', 'x', a, b] with
      | none => Out.panic
      | some val => (match u8FromStrRadix16 val with
        | some v => (.ok (Char.ofNat v) : Out PegError Char)
        | none =>
          match dropBytes 2 val with
          | none => .panic
          | some v2 => .err (errorPegS (c!"error parsing hex " ++ v2))) >>= fun ch =>
            (.ok ([ch], FNode.endRule c!"hex_char" :: tail, ctx) : Res Str)) =
      .ok ([Char.ofNat (16 * digitVal a + digitVal b)], .endRule c!"hex_char" :: tail, ctx) := by
    simp only [e]
    rw [e']
    rfl
  unfold consumeHexChar consumingRule
  rw [start_ok]
  have h4 : ∀ {x y : Res Str} {g : Str × List FNode × Context → Res Str} {d : Str}, x = y → pushErr d (x >>= g) = pushErr d (y >>= g) := by
    rintro _ _ _ _ rfl; rfl
  refine (h4 (Eq.trans ?_ h3)).trans rfl
  simp only [liftA, Flat.consumeVal, Flat.splitFirstNodes, e, e', bind, Except.bind, Out.bind]

/-- text collected but not yet seen as a node -/
def pending (w : Str) : List Node := if w = [] then [] else [.val w]

abbrev dqNode : Node := .rule c!"_\"" [.val c!"\""]

theorem pending_plain (w : Str) (c : Char) (rest : List Node) :
    flatList (pending w ++ .val [c] :: rest) = flatList (pending (w ++ [c]) ++ rest) := by
  unfold pending
  by_cases h : w = []
  · subst h; rfl
  · rw [if_neg h, if_neg (by simp), List.singleton_append, flatList_val_val, List.singleton_append]

theorem pending_rule (w n ns) (rest : List Node) :
    flatList (pending w ++ .rule n ns :: rest) = flatList (pending w) ++ (flatRule n ns ++ flatList rest) := by
  unfold pending
  by_cases h : w = []
  · rw [if_pos h, List.nil_append, flatList_rule, flatList_nil, List.nil_append]
  · rw [if_neg h, List.singleton_append, flatList_val_rule, flatList_val (by simp), flatList_nil]
    rfl

theorem litEsc_run : ∀ (ps : List Piece) (w : Str) f acc tail ctx, PiecesOK ps → 2 * ps.length + 2 ≤ f →
    recConsumeLitEscCh f acc (flatList (pending w ++ ps.map pieceNode ++ [dqNode]) ++ tail) ctx =
      .ok (acc ++ w ++ ps.map Piece.val, flatRule c!"_\"" [.val c!"\""] ++ tail, ctx)
  | [], w, f, acc, tail, ctx, _, hf => by
    obtain ⟨f, rfl⟩ : ∃ g, f = g + 2 := ⟨f - 2, by omega⟩
    rw [List.map_nil, List.append_nil, pending_rule, flatList_nil, List.append_nil, List.map_nil, List.append_nil]
    have h2 : ∀ acc g, recConsumeLitEscCh (g + 1) acc (flatRule c!"_\"" [.val c!"\""] ++ tail) ctx =
        .ok (acc, flatRule c!"_\"" [.val c!"\""] ++ tail, ctx) := fun _ _ => rfl
    unfold pending
    by_cases h : w = []
    · rw [if_pos h, flatList_nil, List.nil_append, h2, h, List.append_nil]
    · rw [if_neg h, flatList_val (by simp), flatList_nil, ← h2 (acc ++ w) f]
      rfl
  | .plain c :: ps, w, f, acc, tail, ctx, hok, hf => by
    have ih := litEsc_run ps (w ++ [c]) f acc tail ctx hok.2.2 (by simp at hf; omega)
    rw [List.map_cons, List.append_assoc, List.cons_append, pieceNode, pending_plain, ← List.append_assoc, ih]
    simp [Piece.val]
  | .esc e :: ps, w, f, acc, tail, ctx, hok, hf => by
    obtain ⟨f, rfl⟩ : ∃ g, f = g + 2 := ⟨f - 2, by simp at hf; omega⟩
    have step : ∀ g acc, 2 * ps.length + 2 ≤ g → recConsumeLitEscCh (g + 1) acc
        (flatRule c!"esc_char" [.val ['\\', e.letter]] ++ flatList (ps.map pieceNode ++ [dqNode]) ++ tail) ctx =
        .ok (acc ++ [e.val] ++ ps.map Piece.val, flatRule c!"_\"" [.val c!"\""] ++ tail, ctx) := by
      intro g acc hg
      have ih := litEsc_run ps [] g (acc ++ [e.val]) tail ctx hok hg
      rw [List.append_nil] at ih
      rw [← ih]
      cases e <;> rfl
    rw [List.map_cons, List.append_assoc, List.cons_append, pieceNode, pending_rule]
    unfold pending
    by_cases h : w = []
    · rw [if_pos h, flatList_nil, List.nil_append, step _ _ (by simp at hf; omega), h, List.append_nil]
      simp [Piece.val]
    · have := step f (acc ++ w) (by simp at hf; omega)
      rw [if_neg h, flatList_val (by simp), flatList_nil]
      have e1 : acc ++ w ++ (Piece.esc e :: ps).map Piece.val = acc ++ w ++ [e.val] ++ ps.map Piece.val := by simp [Piece.val]
      rw [e1, ← this]
      rfl
  | .hex a b :: ps, w, f, acc, tail, ctx, hok, hf => by
    obtain ⟨f, rfl⟩ : ∃ g, f = g + 2 := ⟨f - 2, by simp at hf; omega⟩
    have efl : flatRule c!"hex_char" [.val c!"\\0x", .val [a], .val [b]] =
        [.beginRule c!"hex_char", .val ['\\', '0', 'x', a, b], .endRule c!"hex_char"] := by
      unfold flatRule
      rw [if_neg (by decide)]
      have := flatList_allvals (vs := [c!"\\0x", [a], [b]]) (by simp)
      rw [show [Node.val c!"\\0x", .val [a], .val [b]] = [c!"\\0x", [a], [b]].map Node.val from rfl, this]
      rfl
    have step : ∀ g acc, 2 * ps.length + 2 ≤ g → recConsumeLitEscCh (g + 1) acc
        (flatRule c!"hex_char" [.val c!"\\0x", .val [a], .val [b]] ++ flatList (ps.map pieceNode ++ [dqNode]) ++ tail) ctx =
        .ok (acc ++ [(Piece.hex a b).val] ++ ps.map Piece.val, flatRule c!"_\"" [.val c!"\""] ++ tail, ctx) := by
      intro g acc hg
      have ih := litEsc_run ps [] g (acc ++ [(Piece.hex a b).val]) tail ctx hok.2.2 hg
      rw [List.append_nil] at ih
      rw [← ih, efl, recConsumeLitEscCh]
      show (consumeHexChar _ ctx >>= _) = _
      rw [List.append_assoc]
      show (consumeHexChar (.beginRule c!"hex_char" :: .val ['\\', '0', 'x', a, b] :: .endRule c!"hex_char" ::
        (flatList (ps.map pieceNode ++ [dqNode]) ++ tail)) ctx >>= _) = _
      rw [hex_run hok.1 hok.2.1]
      rfl
    rw [List.map_cons, List.append_assoc, List.cons_append, pieceNode, pending_rule]
    unfold pending
    by_cases h : w = []
    · rw [if_pos h, flatList_nil, List.nil_append, step _ _ (by simp at hf; omega), h, List.append_nil]
      simp
    · have := step f (acc ++ w) (by simp at hf; omega)
      rw [if_neg h, flatList_val (by simp), flatList_nil]
      have e1 : acc ++ w ++ (Piece.hex a b :: ps).map Piece.val = acc ++ w ++ [(Piece.hex a b).val] ++ ps.map Piece.val := by simp
      rw [e1, ← this]
      rfl

theorem double_reads {ps : List Piece} (h : PiecesOK ps) (r : Str) : ∃ ns,
    Peg GP (.ruleName c!"literal") ((Lit.double ps).str ++ r) (.ok r [.rule c!"literal" ns]) ∧
    Runs consumeLiteralString (flatRule c!"literal" ns) (Lit.double ps).val (Lit.double ps).fault := by
  have h2 : Peg GP (.ruleName c!"lit_esc") ((Lit.double ps).str ++ r) (.ok r [.rule c!"lit_esc"
      ([dqNode] ++ (ps.map pieceNode ++ [dqNode]))]) := by
    have e : (Lit.double ps).str ++ r = '"' :: (piecesStr ps ++ '"' :: r) := by simp [Lit.str]
    rw [e]
    exact .call_ok gp_lit_esc (andC dq_ok (andC (pieces_ok ps h) (and1 dq_ok)))
  have h3 : Peg GP (.ruleName c!"lit_noesc") ((Lit.double ps).str ++ r) .fail :=
    .call_fail gp_lit_noesc (.and_fail (sq_fail (by simp [Lit.str])))
  refine ⟨_, .call_ok gp_literal (.or_next h3 (.or_ok h2)), 2 * ps.length + 2, ?_⟩
  intro f hf tail ctx
  refine Gives.consuming (x := none) (by decide) ?_
  have e : flatList [.rule c!"lit_esc" ([dqNode] ++ (ps.map pieceNode ++ [dqNode]))] =
      .beginRule c!"lit_esc" :: (flatRule c!"_\"" [.val c!"\""] ++ flatList (ps.map pieceNode ++ [dqNode])) ++ [.endRule c!"lit_esc"] := by
    rw [flatList_rule, flatList_nil, List.append_nil, flatRule, if_neg (by decide), List.singleton_append, flatList_rule]
  rw [e]
  have h4 := litEsc_run ps [] f [] (.endRule c!"lit_esc" :: .endRule c!"literal" :: tail) ctx h hf
  rw [show pending [] = [] from rfl, List.nil_append, List.nil_append, List.nil_append] at h4
  have e2 : FNode.beginRule c!"lit_esc" :: (flatRule c!"_\"" [.val c!"\""] ++ flatList (ps.map pieceNode ++ [dqNode])) ++
      [.endRule c!"lit_esc"] ++ .endRule c!"literal" :: tail =
      .beginRule c!"lit_esc" :: (flatRule c!"_\"" [.val c!"\""] ++ (flatList (ps.map pieceNode ++ [dqNode]) ++
        .endRule c!"lit_esc" :: .endRule c!"literal" :: tail)) := by simp
  rw [e2]
  show pushErr _ (((recConsumeLitEscCh f [] (flatList (ps.map pieceNode ++ [dqNode]) ++
        .endRule c!"lit_esc" :: .endRule c!"literal" :: tail) ctx) >>= _) >>= _) = _
  rw [h4]
  rfl

/-- literals -/
theorem lit_reads {l : Lit} (h : l.OK) (r : Str) : ∃ ns,
    Peg GP (.ruleName c!"literal") (l.str ++ r) (.ok r [.rule c!"literal" ns]) ∧
    Runs consumeLiteralString (flatRule c!"literal" ns) l.val l.fault := by
  cases l with
  | single b => exact single_reads h r
  | double ps => exact double_reads h r

theorem lit_fail' {r : Str} (h1 : r.head? ≠ some '\'') (h2 : r.head? ≠ some '"') : Peg GP (.ruleName c!"literal") r .fail :=
  .call_fail gp_literal (.or_next (.call_fail gp_lit_noesc (.and_fail (sq_fail h1)))
    (.or_next (.call_fail gp_lit_esc (.and_fail (dq_fail h2))) (.or_nil _)))

end DP
