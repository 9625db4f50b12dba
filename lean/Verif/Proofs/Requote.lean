/-
Single-quoted literals written between double quotes: the document stays readable, and its meaning is the one whose
backslashes, doubled, give the meaning of the document.
-/
import Verif.Spec.Requote
import Verif.Proofs.SynPrint

namespace DP
open Spec Spec.Syntax

theorem doubled_cons (c : Char) (v : Str) : doubled (c :: v) = (if c = '\\' then ['\\', '\\'] else [c]) ++ doubled v := rfl

theorem doubled_clean {v : Str} (h : '\\' ∉ v) : doubled v = v := by
  induction v with
  | nil => rfl
  | cons c v ih =>
    have hc : c ≠ '\\' := fun e => h (by simp [e])
    rw [doubled_cons, if_neg hc, ih (fun hm => h (by simp [hm]))]
    rfl

theorem lit_requote {l : Lit} (h : l.OK) (ha : Ascii l.str) (hc : l.Clean) :
    l.requote.OK ∧ Ascii l.requote.str ∧ ∀ v, l.val = some v → ∃ v', l.requote.val = some v' ∧ v = doubled v' := by
  cases l with
  | single b =>
    have hb : ValidLiteral b := fun c hm => Nat.lt_trans (ha c (by simp [Lit.str, hm])) (by decide)
    refine ⟨piecesOf_ok hb, litOf_ascii hb, fun v hv => ⟨b, litOf_val hb, ?_⟩⟩
    by_cases hb : b = []
    · simp [Lit.val, hb] at hv
    · simp [Lit.val, hb] at hv
      exact hv.symm
  | double ps =>
    refine ⟨h, ha, fun v hv => ⟨v, hv, ?_⟩⟩
    cases hv
    exact (doubled_clean hc).symm

theorem doubledL_map (es : List Expr) : doubledL es = es.map doubledE := by
  induction es with
  | nil => rfl
  | cons e es ih => rw [doubledL, ih]; rfl

theorem doubledE_seqOf (es : List Expr) : doubledE (seqOf es) = seqOf (doubledL es) := by
  match es with
  | [] => rfl
  | [e] => rfl
  | e :: e' :: es => rfl

theorem doubledE_altOf (es : List Expr) : doubledE (altOf es) = altOf (doubledL es) := by
  match es with
  | [] => rfl
  | [e] => rfl
  | e :: e' :: es => rfl

theorem looksLikeError_requote {i : Syntax.Item} {t : Syntax.Tail} (h : LooksLikeError i.requote t.requote) : LooksLikeError i t := by
  have key : ∀ {a : Syntax.Atom} {g1 e g2}, a.requote = .par g1 e g2 → ∃ e', a = .par g1 e' g2 ∧ e'.requote = e := by
    intro a g1 e g2 h
    cases a <;> simp [Atom.requote] at h ⊢
    exact ⟨⟨h.1, h.2.2⟩, h.2.1⟩
  have key2 : ∀ {e : Alt} {l}, e.requote = .one (.item (.plain (.lit l)) .nil) → ∃ l', e = .one (.item (.plain (.lit l')) .nil) := by
    intro e l h
    cases e with
    | cons => simp [Alt.requote] at h
    | one s =>
      cases s with
      | err => simp [Alt.requote, Seq.requote] at h
      | item i t =>
        cases t with
        | item | err => simp [Alt.requote, Seq.requote, Tail.requote] at h
        | nil =>
          cases i with
          | plain a =>
            cases a with
            | lit l' => exact ⟨l', rfl⟩
            | _ => simp [Alt.requote, Seq.requote, Tail.requote, Item.requote, Atom.requote] at h
          | _ => simp [Alt.requote, Seq.requote, Tail.requote, Item.requote] at h
  cases i with
  | plain a =>
    cases a with
    | ref n =>
      cases t with
      | item g i t =>
        simp only [Item.requote, Atom.requote, Tail.requote, LooksLikeError] at h
        refine ⟨h.1, ?_⟩
        have h2 := h.2
        cases i with
        | not a => simp [Item.requote] at h2
        | plain a | star a | plus a | opt a =>
          simp only [Item.requote] at h2
          split at h2
          all_goals
            first
            | (next h3 =>
                injection h3 with h3
                obtain ⟨e', rfl, h4⟩ := key h3
                obtain ⟨l', rfl⟩ := key2 h4
                trivial)
            | (next h3 => cases h3)
            | exact h2.elim
      | _ => simp [Item.requote, Atom.requote, Tail.requote, LooksLikeError] at h
    | _ => cases t <;> simp [Item.requote, Atom.requote, Tail.requote, LooksLikeError] at h
  | _ => cases t <;> simp [Item.requote, Tail.requote, LooksLikeError] at h

theorem asc_app {a b : Str} : Ascii (a ++ b) ↔ Ascii a ∧ Ascii b :=
  ⟨fun h => ⟨ascii_append_left h, ascii_append_right h⟩, fun h => ascii_append h.1 h.2⟩

theorem asc_cons {c : Char} {b : Str} : Ascii (c :: b) ↔ c.toNat < 128 ∧ Ascii b :=
  ⟨fun h => ⟨h c (by simp), fun d hd => h d (by simp [hd])⟩, fun h => ascii_consC h.1 h.2⟩

mutual
theorem atom_requote : ∀ a : Syntax.Atom, a.OK → Ascii a.str → a.Clean →
    a.requote.OK ∧ Ascii a.requote.str ∧ ∀ e, a.denote = some e → ∃ e', a.requote.denote = some e' ∧ e = doubledE e'
  | .lit l, h, ha, hc => by
    obtain ⟨h1, h2, h3⟩ := lit_requote (l := l) h ha hc
    refine ⟨h1, h2, fun e he => ?_⟩
    rw [Atom.denote] at he
    obtain ⟨v, hv, rfl⟩ := Option.map_eq_some_iff.mp he
    obtain ⟨v', hv', rfl⟩ := h3 v hv
    exact ⟨.simple (.literal v'), by rw [Atom.requote, Atom.denote, hv']; rfl, rfl⟩
  | .cls cs rs, h, ha, _ => ⟨h, ha, fun e he => ⟨e, he, by cases he; rfl⟩⟩
  | .ref n, h, ha, _ => ⟨h, ha, fun e he => ⟨e, he, by cases he; rfl⟩⟩
  | .dot, h, ha, _ => ⟨h, ha, fun e he => ⟨e, he, by cases he; rfl⟩⟩
  | .par g1 a g2, h, ha, hc => by
    simp only [Atom.str, asc_cons, asc_app] at ha
    obtain ⟨h1, h2, h3⟩ := alt_requote a h.2.1 ha.1.1.2 hc
    refine ⟨⟨h.1, h1, h.2.2⟩, ?_, fun e he => ?_⟩
    · simp only [Atom.requote, Atom.str, asc_cons, asc_app]
      exact ⟨⟨⟨ha.1.1.1, h2⟩, ha.1.2⟩, ha.2⟩
    · rw [Atom.denote] at he
      obtain ⟨es, hes, rfl⟩ := Option.map_eq_some_iff.mp he
      obtain ⟨es', hes', rfl⟩ := h3 es hes
      exact ⟨altOf es', by rw [Atom.requote, Atom.denote, hes']; rfl, (doubledE_altOf es').symm⟩
theorem item_requote : ∀ i : Syntax.Item, i.OK → Ascii i.str → i.Clean →
    i.requote.OK ∧ Ascii i.requote.str ∧ ∀ e, i.denote = some e → ∃ e', i.requote.denote = some e' ∧ e = doubledE e'
  | .plain a, h, ha, hc => atom_requote a h ha hc
  | .star a, h, ha, hc => by
    rw [Item.str, asc_app] at ha
    obtain ⟨h1, h2, h3⟩ := atom_requote a h ha.1 hc
    refine ⟨h1, by rw [Item.requote, Item.str, asc_app]; exact ⟨h2, ha.2⟩, fun e he => ?_⟩
    rw [Item.denote] at he
    obtain ⟨v, hv, rfl⟩ := Option.map_eq_some_iff.mp he
    obtain ⟨v', hv', rfl⟩ := h3 v hv
    exact ⟨_, by rw [Item.requote, Item.denote, hv']; rfl, rfl⟩
  | .plus a, h, ha, hc => by
    rw [Item.str, asc_app] at ha
    obtain ⟨h1, h2, h3⟩ := atom_requote a h ha.1 hc
    refine ⟨h1, by rw [Item.requote, Item.str, asc_app]; exact ⟨h2, ha.2⟩, fun e he => ?_⟩
    rw [Item.denote] at he
    obtain ⟨v, hv, rfl⟩ := Option.map_eq_some_iff.mp he
    obtain ⟨v', hv', rfl⟩ := h3 v hv
    exact ⟨_, by rw [Item.requote, Item.denote, hv']; rfl, rfl⟩
  | .opt a, h, ha, hc => by
    rw [Item.str, asc_app] at ha
    obtain ⟨h1, h2, h3⟩ := atom_requote a h ha.1 hc
    refine ⟨h1, by rw [Item.requote, Item.str, asc_app]; exact ⟨h2, ha.2⟩, fun e he => ?_⟩
    rw [Item.denote] at he
    obtain ⟨v, hv, rfl⟩ := Option.map_eq_some_iff.mp he
    obtain ⟨v', hv', rfl⟩ := h3 v hv
    exact ⟨_, by rw [Item.requote, Item.denote, hv']; rfl, rfl⟩
  | .not a, h, ha, hc => by
    rw [Item.str, asc_cons] at ha
    obtain ⟨h1, h2, h3⟩ := atom_requote a h ha.2 hc
    refine ⟨h1, by rw [Item.requote, Item.str, asc_cons]; exact ⟨ha.1, h2⟩, fun e he => ?_⟩
    rw [Item.denote] at he
    obtain ⟨v, hv, rfl⟩ := Option.map_eq_some_iff.mp he
    obtain ⟨v', hv', rfl⟩ := h3 v hv
    exact ⟨_, by rw [Item.requote, Item.denote, hv']; rfl, rfl⟩
theorem seq_requote : ∀ s : Syntax.Seq, s.OK → Ascii s.str → s.Clean →
    s.requote.OK ∧ Ascii s.requote.str ∧ ∀ es, s.denote = some es → ∃ es', s.requote.denote = some es' ∧ es = doubledL es'
  | .err g1 g2 l g3, h, ha, hc => by
    simp only [Seq.str, errStr, asc_app] at ha
    obtain ⟨h1, h2, h3⟩ := lit_requote h.2.2.1 ha.1.1.2 hc
    refine ⟨⟨h.1, h.2.1, h1, h.2.2.2⟩, ?_, fun e he => ?_⟩
    · simp only [Seq.requote, Seq.str, errStr, asc_app]
      exact ⟨⟨⟨ha.1.1.1, h2⟩, ha.1.2⟩, ha.2⟩
    · rw [Seq.denote] at he
      obtain ⟨v, hv, rfl⟩ := Option.map_eq_some_iff.mp he
      obtain ⟨v', hv', rfl⟩ := h3 v hv
      exact ⟨_, by rw [Seq.requote, Seq.denote, hv']; rfl, rfl⟩
  | .item i t, h, ha, hc => by
    rw [Seq.str, asc_app] at ha
    obtain ⟨h1, h2, h3⟩ := item_requote i h.1 ha.1 hc.1
    obtain ⟨k1, k2, k3⟩ := tail_requote t h.2.1 ha.2 hc.2
    refine ⟨⟨h1, k1, fun hl => h.2.2 (looksLikeError_requote hl)⟩, ?_, fun e he => ?_⟩
    · rw [Seq.requote, Seq.str, asc_app]
      exact ⟨h2, k2⟩
    · rw [Seq.denote] at he
      obtain ⟨v, hv, he⟩ := Option.bind_eq_some_iff.mp he
      obtain ⟨w, hw, rfl⟩ := Option.map_eq_some_iff.mp he
      obtain ⟨v', hv', rfl⟩ := h3 v hv
      obtain ⟨w', hw', rfl⟩ := k3 w hw
      exact ⟨_, by rw [Seq.requote, Seq.denote, hv', hw']; rfl, rfl⟩
theorem tail_requote : ∀ t : Syntax.Tail, t.OK → Ascii t.str → t.Clean →
    t.requote.OK ∧ Ascii t.requote.str ∧ ∀ es, t.denote = some es → ∃ es', t.requote.denote = some es' ∧ es = doubledL es'
  | .nil, h, ha, _ => ⟨h, ha, fun es he => ⟨es, he, by cases he; rfl⟩⟩
  | .item g i t, h, ha, hc => by
    simp only [Tail.str, asc_app] at ha
    obtain ⟨h1, h2, h3⟩ := item_requote i h.2.1 ha.1.2 hc.1
    obtain ⟨k1, k2, k3⟩ := tail_requote t h.2.2.1 ha.2 hc.2
    refine ⟨⟨h.1, h1, k1, fun hl => h.2.2.2 (looksLikeError_requote hl)⟩, ?_, fun e he => ?_⟩
    · simp only [Tail.requote, Tail.str, asc_app]
      exact ⟨⟨ha.1.1, h2⟩, k2⟩
    · rw [Tail.denote] at he
      obtain ⟨v, hv, he⟩ := Option.bind_eq_some_iff.mp he
      obtain ⟨w, hw, rfl⟩ := Option.map_eq_some_iff.mp he
      obtain ⟨v', hv', rfl⟩ := h3 v hv
      obtain ⟨w', hw', rfl⟩ := k3 w hw
      exact ⟨_, by rw [Tail.requote, Tail.denote, hv', hw']; rfl, rfl⟩
  | .err g g1 g2 l g3 t, h, ha, hc => by
    simp only [Tail.str, errStr, asc_app] at ha
    obtain ⟨h1, h2, h3⟩ := lit_requote h.2.1.2.2.1 ha.1.2.1.1.2 hc.1
    obtain ⟨k1, k2, k3⟩ := tail_requote t h.2.2 ha.2 hc.2
    refine ⟨⟨h.1, ⟨h.2.1.1, h.2.1.2.1, h1, h.2.1.2.2.2⟩, k1⟩, ?_, fun e he => ?_⟩
    · simp only [Tail.requote, Tail.str, errStr, asc_app]
      exact ⟨⟨ha.1.1, ⟨⟨ha.1.2.1.1.1, h2⟩, ha.1.2.1.2⟩, ha.1.2.2⟩, k2⟩
    · cases t with
      | nil =>
        rw [Tail.denote] at he
        obtain ⟨v, hv, rfl⟩ := Option.map_eq_some_iff.mp he
        obtain ⟨v', hv', rfl⟩ := h3 v hv
        exact ⟨_, by rw [Tail.requote, Tail.requote, Tail.denote, hv']; rfl, rfl⟩
      | _ => simp [Tail.denote] at he
theorem alt_requote : ∀ a : Alt, a.OK → Ascii a.str → a.Clean →
    a.requote.OK ∧ Ascii a.requote.str ∧ ∀ es, a.denote = some es → ∃ es', a.requote.denote = some es' ∧ es = doubledL es'
  | .one s, h, ha, hc => by
    obtain ⟨h1, h2, h3⟩ := seq_requote s h ha hc
    refine ⟨h1, h2, fun e he => ?_⟩
    rw [Alt.denote] at he
    obtain ⟨v, hv, rfl⟩ := Option.map_eq_some_iff.mp he
    obtain ⟨v', hv', rfl⟩ := h3 v hv
    exact ⟨_, by rw [Alt.requote, Alt.denote, hv']; rfl, by rw [doubledL, doubledL, doubledE_seqOf]⟩
  | .cons s g1 g2 a, h, ha, hc => by
    simp only [Alt.str, asc_app] at ha
    obtain ⟨h1, h2, h3⟩ := seq_requote s h.1 ha.1.1.1.1 hc.1
    obtain ⟨k1, k2, k3⟩ := alt_requote a h.2.2.2 ha.2 hc.2
    refine ⟨⟨h1, h.2.1, h.2.2.1, k1⟩, ?_, fun e he => ?_⟩
    · simp only [Alt.requote, Alt.str, asc_app]
      exact ⟨⟨⟨⟨h2, ha.1.1.1.2⟩, ha.1.1.2⟩, ha.1.2⟩, k2⟩
    · rw [Alt.denote] at he
      obtain ⟨v, hv, he⟩ := Option.bind_eq_some_iff.mp he
      obtain ⟨w, hw, rfl⟩ := Option.map_eq_some_iff.mp he
      obtain ⟨v', hv', rfl⟩ := h3 v hv
      obtain ⟨w', hw', rfl⟩ := k3 w hw
      exact ⟨_, by rw [Alt.requote, Alt.denote, hv', hw']; rfl, by rw [doubledL, doubledE_seqOf]⟩
end

/-- the same names, with the backslashes of the expressions doubled -/
def MDoubled (m m' : Meaning) : Prop := ∀ x, m x = (m' x).map doubledE

mutual
theorem def_requote : ∀ d : Def, d.OK → Ascii d.str → d.Clean →
    d.requote.OK ∧ Ascii d.requote.str ∧ ∀ m0 m0' m, MDoubled m0 m0' → d.denote m0 = some m →
      ∃ m', d.requote.denote m0' = some m' ∧ MDoubled m m'
  | .rule n g1 g2 e t, h, ha, hc => by
    simp only [Def.str, asc_app] at ha
    obtain ⟨h1, h2, h3⟩ := alt_requote e h.2.2.2.1 ha.1.2 hc
    refine ⟨⟨h.1, h.2.1, h.2.2.1, h1, h.2.2.2.2⟩, ?_, fun m0 m0' m hm hd => ?_⟩
    · simp only [Def.requote, Def.str, asc_app]
      exact ⟨⟨ha.1.1, h2⟩, ha.2⟩
    · rw [Def.denote] at hd
      obtain ⟨v, hv, rfl⟩ := Option.map_eq_some_iff.mp hd
      obtain ⟨v', hv', rfl⟩ := h3 v hv
      refine ⟨_, by rw [Def.requote, Def.denote, hv']; rfl, fun x => ?_⟩
      by_cases hx : x = n
      · simp [hx, doubledE_altOf]
      · simp [hx, hm x]
  | .module n g1 g2 ds t, h, ha, hc => by
    simp only [Def.str, asc_app] at ha
    obtain ⟨h1, h2, h3⟩ := defs_requote ds h.2.2.2.1 ha.1.1.2 hc
    refine ⟨⟨h.1, h.2.1, h.2.2.1, h1, h.2.2.2.2⟩, ?_, fun m0 m0' m hm hd => ?_⟩
    · simp only [Def.requote, Def.str, asc_app]
      exact ⟨⟨⟨ha.1.1.1, h2⟩, ha.1.2⟩, ha.2⟩
    · rw [Def.denote] at hd
      obtain ⟨v, hv, rfl⟩ := Option.map_eq_some_iff.mp hd
      obtain ⟨v', hv', hvv⟩ := h3 _ (fun _ => none) v (fun _ => rfl) hv
      refine ⟨_, by rw [Def.requote, Def.denote, hv']; rfl, fun x => ?_⟩
      simp only [hm x, hvv x]
      cases m0' x <;> simp
theorem defs_requote : ∀ ds : Defs, ds.OK → Ascii ds.str → ds.Clean →
    ds.requote.OK ∧ Ascii ds.requote.str ∧ ∀ m0 m0' m, MDoubled m0 m0' → ds.denote m0 = some m →
      ∃ m', ds.requote.denote m0' = some m' ∧ MDoubled m m'
  | .one d, h, ha, hc => def_requote d h ha hc
  | .cons d ds, h, ha, hc => by
    simp only [Defs.str, asc_app] at ha
    obtain ⟨h1, h2, h3⟩ := def_requote d h.1 ha.1 hc.1
    obtain ⟨k1, k2, k3⟩ := defs_requote ds h.2 ha.2 hc.2
    refine ⟨⟨h1, k1⟩, ?_, fun m0 m0' m hm hd => ?_⟩
    · simp only [Defs.requote, Defs.str, asc_app]
      exact ⟨h2, k2⟩
    · rw [Defs.denote] at hd
      obtain ⟨v, hv, hd⟩ := Option.bind_eq_some_iff.mp hd
      obtain ⟨v', hv', hvv⟩ := h3 m0 m0' v hm hv
      obtain ⟨w', hw', hww⟩ := k3 v v' m hvv hd
      exact ⟨w', by rw [Defs.requote, Defs.denote, hv']; exact hw', hww⟩
end

theorem doc_requote {d : Doc} (h : d.OK) (ha : Ascii d.str) (hc : d.Clean) {m : Meaning} (hm : d.denote = some m) :
    d.requote.OK ∧ Ascii d.requote.str ∧ ∃ m', d.requote.denote = some m' ∧ MDoubled m m' := by
  rw [Doc.str, asc_app] at ha
  obtain ⟨h1, h2, h3⟩ := defs_requote d.defs h.2 ha.2 hc
  exact ⟨⟨h.1, h1⟩, by rw [Doc.requote, Doc.str, asc_app]; exact ⟨ha.1, h2⟩, h3 _ _ m (fun _ => rfl) hm⟩

end DP
