/-
A decision procedure for `Doc.OK`, to check concrete documents by computation.
-/
import Verif.Proofs.SynInv

namespace DP
open Spec Spec.Syntax

def symbolOK : Str → Bool
  | [] => false
  | c :: cs => decide (WordChar c) && cs.all fun d => decide (WordChar d ∨ d = '\'' ∨ d = '"')

theorem symbolOK_sound {s} (h : symbolOK s = true) : ValidSymbol s := by
  cases s with
  | nil => cases h
  | cons c cs =>
    rw [symbolOK, Bool.and_eq_true, List.all_eq_true] at h
    exact ⟨c, cs, rfl, of_decide_eq_true h.1, fun d hd => of_decide_eq_true (h.2 d hd)⟩

/-- the parts between the dots -/
def splitDots : Str → Str × List Str
  | [] => ([], [])
  | c :: cs => if c = '.' then ([], (splitDots cs).1 :: (splitDots cs).2) else (c :: (splitDots cs).1, (splitDots cs).2)

def dotted : List Str → Str
  | [] => []
  | y :: ys => '.' :: y ++ dotted ys

theorem splitDots_join : ∀ s, (splitDots s).1 ++ dotted (splitDots s).2 = s
  | [] => rfl
  | c :: cs => by
    have ih := splitDots_join cs
    rw [splitDots]
    split
    · next h => simp [dotted, ih, h]
    · simp [ih]

theorem dotted_tail : ∀ l : List Str, l.all symbolOK = true → DottedTail (dotted l)
  | [], _ => .nil
  | y :: ys, h => by
    simp only [List.all_cons, Bool.and_eq_true] at h
    exact .cons (symbolOK_sound h.1) (dotted_tail ys h.2)

def nameOK (n : Str) : Bool :=
  match splitDots n with
  | ([], y :: ys) => symbolOK y && ys.all symbolOK
  | (y, ys) => symbolOK y && ys.all symbolOK

theorem nameOK_sound {n} (h : nameOK n = true) : ValidName n := by
  have hj := splitDots_join n
  rw [nameOK] at h
  split at h
  · next y ys e =>
    rw [Bool.and_eq_true] at h
    rw [e] at hj
    exact ⟨['.'], y, dotted ys, Or.inr rfl, symbolOK_sound h.1, dotted_tail ys h.2, by rw [← hj]; simp [dotted]⟩
  · next y ys _ e =>
    rw [Bool.and_eq_true] at h
    rw [e] at hj
    exact ⟨[], y, dotted ys, Or.inl rfl, symbolOK_sound h.1, dotted_tail ys h.2, by rw [← hj]; simp⟩

def classOK (cs : Str) (rs : List (Char × Char)) : Bool :=
  decide (cs ≠ [] ∨ rs ≠ []) && decide (']' ∉ cs) && decide ('-' ∉ cs.tail) && decide (cs ≠ [] → ∀ r ∈ rs.head?, r.1 ≠ '-')

theorem classOK_sound {cs rs} (h : classOK cs rs = true) : ClassOK cs rs := by
  simp only [classOK, Bool.and_eq_true, decide_eq_true_eq] at h
  exact ⟨h.1.1.1, h.1.1.2, h.1.2, h.2⟩

def sepOK (g : Gaps) : Bool :=
  decide (GapsOK g) && match g with
    | [] => false
    | h :: _ => !h.isComment

theorem sepOK_sound {g} (h : sepOK g = true) : SepOK g := by
  rw [sepOK.eq_def, Bool.and_eq_true] at h
  refine ⟨of_decide_eq_true h.1, ?_⟩
  cases g with
  | nil => cases h.2
  | cons a as => exact ⟨a, as, rfl, by simpa using h.2⟩

def slashOK (g : Gaps) : Bool := decide (GapsOK g) && decide (∀ h ∈ g.head?, h.isComment = false)

theorem slashOK_sound {g} (h : slashOK g = true) : SlashOK g := by
  rw [slashOK, Bool.and_eq_true] at h
  exact ⟨of_decide_eq_true h.1, of_decide_eq_true h.2⟩

/-- a sufficient condition -/
def noError : Syntax.Item → Syntax.Tail → Bool
  | .plain (.ref n), .item _ _ _ => decide (n ≠ c!"error")
  | _, _ => true

theorem noError_sound {i t} (h : noError i t = true) : ¬ LooksLikeError i t := by
  intro hl
  unfold LooksLikeError at hl
  split at hl
  · rw [noError] at h
    exact of_decide_eq_true h hl.1
  · exact hl

def errOK (g1 g2 : Gaps) (l : Lit) (g3 : Gaps) : Bool :=
  decide (GapsOK g1) && decide (GapsOK g2) && decide l.OK && decide (GapsOK g3)

theorem errOK_sound {g1 g2 l g3} (h : errOK g1 g2 l g3 = true) : ErrOK g1 g2 l g3 := by
  simp only [errOK, Bool.and_eq_true, decide_eq_true_eq] at h
  exact ⟨h.1.1.1, h.1.1.2, h.1.2, h.2⟩

mutual
def atomOK : Syntax.Atom → Bool
  | .lit l => decide l.OK
  | .cls cs rs => classOK cs rs
  | .ref n => nameOK n
  | .dot => true
  | .par g1 e g2 => decide (GapsOK g1) && altOK e && decide (GapsOK g2)
def itemOK : Syntax.Item → Bool
  | .plain a => atomOK a
  | .star a => atomOK a
  | .plus a => atomOK a
  | .opt a => atomOK a
  | .not a => atomOK a
def seqOK : Syntax.Seq → Bool
  | .err g1 g2 l g3 => errOK g1 g2 l g3
  | .item i t => itemOK i && tailOK t && noError i t
def tailOK : Syntax.Tail → Bool
  | .nil => true
  | .item g i t => sepOK g && itemOK i && tailOK t && noError i t
  | .err g g1 g2 l g3 t => sepOK g && errOK g1 g2 l g3 && tailOK t
def altOK : Syntax.Alt → Bool
  | .one s => seqOK s
  | .cons s g1 g2 a => seqOK s && decide (GapsOK g1) && slashOK g2 && altOK a
end

mutual
theorem atomOK_sound : ∀ a, atomOK a = true → a.OK
  | .lit l, h => by rw [atomOK] at h; rw [Atom.OK]; exact of_decide_eq_true h
  | .cls cs rs, h => by rw [atomOK] at h; rw [Atom.OK]; exact classOK_sound h
  | .ref n, h => by rw [atomOK] at h; rw [Atom.OK]; exact nameOK_sound h
  | .dot, _ => by rw [Atom.OK]; trivial
  | .par g1 e g2, h => by
    simp only [atomOK, Bool.and_eq_true, decide_eq_true_eq] at h
    rw [Atom.OK]
    exact ⟨h.1.1, altOK_sound e h.1.2, h.2⟩
theorem itemOK_sound : ∀ i, itemOK i = true → i.OK
  | .plain a, h => by rw [itemOK] at h; rw [Item.OK]; exact atomOK_sound a h
  | .star a, h => by rw [itemOK] at h; rw [Item.OK]; exact atomOK_sound a h
  | .plus a, h => by rw [itemOK] at h; rw [Item.OK]; exact atomOK_sound a h
  | .opt a, h => by rw [itemOK] at h; rw [Item.OK]; exact atomOK_sound a h
  | .not a, h => by rw [itemOK] at h; rw [Item.OK]; exact atomOK_sound a h
theorem seqOK_sound : ∀ s, seqOK s = true → s.OK
  | .err g1 g2 l g3, h => by rw [seqOK] at h; rw [Seq.OK]; exact errOK_sound h
  | .item i t, h => by
    simp only [seqOK, Bool.and_eq_true] at h
    rw [Seq.OK]
    exact ⟨itemOK_sound i h.1.1, tailOK_sound t h.1.2, noError_sound h.2⟩
theorem tailOK_sound : ∀ t, tailOK t = true → t.OK
  | .nil, _ => by rw [Tail.OK]; trivial
  | .item g i t, h => by
    simp only [tailOK, Bool.and_eq_true] at h
    rw [Tail.OK]
    exact ⟨sepOK_sound h.1.1.1, itemOK_sound i h.1.1.2, tailOK_sound t h.1.2, noError_sound h.2⟩
  | .err g g1 g2 l g3 t, h => by
    simp only [tailOK, Bool.and_eq_true] at h
    rw [Tail.OK]
    exact ⟨sepOK_sound h.1.1, errOK_sound h.1.2, tailOK_sound t h.2⟩
theorem altOK_sound : ∀ a, altOK a = true → a.OK
  | .one s, h => by rw [altOK] at h; rw [Alt.OK]; exact seqOK_sound s h
  | .cons s g1 g2 a, h => by
    simp only [altOK, Bool.and_eq_true, decide_eq_true_eq] at h
    rw [Alt.OK]
    exact ⟨seqOK_sound s h.1.1.1, h.1.1.2, slashOK_sound h.1.2, altOK_sound a h.2⟩
end

def termOK (t : Term) : Bool := decide (GapsOK t.gaps) && decide (∀ g ∈ t.before, g.isEol = false)

theorem termOK_sound {t} (h : termOK t = true) : t.OK := by
  rw [termOK, Bool.and_eq_true] at h
  exact ⟨of_decide_eq_true h.1, of_decide_eq_true h.2⟩

mutual
def defOK : Def → Bool
  | .rule n g1 g2 e t => nameOK n && decide (GapsOK g1) && decide (GapsOK g2) && altOK e && termOK t
  | .module n g1 g2 ds t => symbolOK n && decide (GapsOK g1) && decide (GapsOK g2) && defsOK ds && termOK t
def defsOK : Defs → Bool
  | .one d => defOK d
  | .cons d ds => defOK d && defsOK ds
end

mutual
theorem defOK_sound : ∀ d, defOK d = true → d.OK
  | .rule n g1 g2 e t, h => by
    simp only [defOK, Bool.and_eq_true, decide_eq_true_eq] at h
    rw [Def.OK]
    exact ⟨nameOK_sound h.1.1.1.1, h.1.1.1.2, h.1.1.2, altOK_sound e h.1.2, termOK_sound h.2⟩
  | .module n g1 g2 ds t, h => by
    simp only [defOK, Bool.and_eq_true, decide_eq_true_eq] at h
    rw [Def.OK]
    exact ⟨symbolOK_sound h.1.1.1.1, h.1.1.1.2, h.1.1.2, defsOK_sound ds h.1.2, termOK_sound h.2⟩
theorem defsOK_sound : ∀ ds, defsOK ds = true → ds.OK
  | .one d, h => by rw [defsOK] at h; rw [Defs.OK]; exact defOK_sound d h
  | .cons d ds, h => by
    rw [defsOK, Bool.and_eq_true] at h
    rw [Defs.OK]
    exact ⟨defOK_sound d h.1, defsOK_sound ds h.2⟩
end

def docOK (d : Doc) : Bool := decide (GapsOK d.before) && defsOK d.defs

theorem docOK_sound {d : Doc} (h : docOK d = true) : d.OK := by
  rw [docOK, Bool.and_eq_true] at h
  exact ⟨of_decide_eq_true h.1, defsOK_sound _ h.2⟩

end DP
