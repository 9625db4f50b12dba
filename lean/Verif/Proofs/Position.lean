/-
The status invariant: the parser is always at a point of the text, with its true coordinates.
-/
import Mathlib.Data.List.TakeWhile
import Mathlib.Tactic.Common
import Verif.Proofs.Preserve
import Verif.Spec.Text

namespace DP
open Spec

theorem coords_nil : CoordsOf [] Pos.init := ⟨rfl, rfl, rfl, rfl⟩

theorem lastLine_append (pre : Str) (c : Char) :
    lastLine (pre ++ [c]) = if c = '\n' then [] else lastLine pre ++ [c] := by
  unfold lastLine
  rw [List.reverse_append]
  by_cases h : c = '\n' <;> simp [h]

theorem sinceBreak_append (pre : Str) (c : Char) :
    sinceBreak (pre ++ [c]) = if c = '\n' ∨ c = '\r' then [] else sinceBreak pre ++ [c] := by
  unfold sinceBreak
  rw [List.reverse_append]
  by_cases h : c = '\n'
  · subst h; simp
  · by_cases h' : c = '\r'
    · subst h'; simp
    · simp [h, h']

theorem lastLine_length_le (pre : Str) : (lastLine pre).length ≤ pre.length := by
  unfold lastLine
  rw [List.length_reverse]
  exact le_trans (List.takeWhile_prefix _).length_le (by simp)

theorem lastLine_split (pre : Str) :
    ∃ p0, pre = p0 ++ lastLine pre ∧ (p0 = [] ∨ ∃ p1, p0 = p1 ++ ['\n']) := by
  refine ⟨(pre.reverse.dropWhile (· ≠ '\n')).reverse, ?_, ?_⟩
  · unfold lastLine
    rw [← List.reverse_append, List.takeWhile_append_dropWhile, List.reverse_reverse]
  · cases h : pre.reverse.dropWhile (· ≠ '\n') with
    | nil => simp
    | cons c r =>
      right
      have hc : c = '\n' := by
        have := List.head?_dropWhile_not (fun c => decide (c ≠ '\n')) pre.reverse
        rw [h] at this
        simpa using this
      exact ⟨r.reverse, by simp [hc]⟩

theorem lastLine_no_newline (pre : Str) : '\n' ∉ lastLine pre := by
  unfold lastLine
  intro h
  rw [List.mem_reverse] at h
  have := List.mem_takeWhile_imp h
  simp at this

theorem getChar_ok {st st' : Status} {c : Char} (h : getChar st = .ok (st', c)) :
    st.itParsing = c :: st'.itParsing ∧ st'.text2parse = st.text2parse ∧
    st'.potentialError = st.potentialError ∧ st'.traceRules = st.traceRules ∧
    st'.walkingRules = st.walkingRules ∧
    st'.pos = (if c = '\n' then
        { n := st.pos.n + 1, col := 0, row := st.pos.row + 1, startLine := st.pos.n + 1 : Pos }
      else if c = '\r' then { st.pos with n := st.pos.n + 1, col := 0 }
      else { st.pos with n := st.pos.n + 1, col := st.pos.col + 1 }) := by
  unfold getChar at h
  cases hi : st.itParsing with
  | nil => rw [hi] at h; simp at h
  | cons ch rest =>
    rw [hi] at h
    simp only [Except.ok.injEq, Prod.mk.injEq] at h
    obtain ⟨rfl, rfl⟩ := h
    simp

theorem coords_step {pre p c} (h : CoordsOf pre p) :
    CoordsOf (pre ++ [c]) (if c = '\n' then
        { n := p.n + 1, col := 0, row := p.row + 1, startLine := p.n + 1 : Pos }
      else if c = '\r' then { p with n := p.n + 1, col := 0 }
      else { p with n := p.n + 1, col := p.col + 1 }) := by
  have hl := lastLine_length_le pre
  by_cases h1 : c = '\n'
  · subst h1
    constructor <;> simp [h.n, h.row, List.count_append, sinceBreak_append, lastLine_append]
  · by_cases h2 : c = '\r'
    · subst h2
      constructor <;>
        simp [h.n, h.row, h.startLine, List.count_append, sinceBreak_append, lastLine_append]
    · constructor <;>
        simp [h1, h2, h.n, h.row, h.col, h.startLine, List.count_append, sinceBreak_append,
          lastLine_append]

/-- The parser is at a point of `s`, and knows its coordinates. -/
structure Inv (s : Str) (st : Status) : Prop where
  text : st.text2parse = s
  at_ : ∃ pre, s = pre ++ st.itParsing ∧ CoordsOf pre st.pos

/-- The error describes a point of `s`. -/
structure ErrAt (s : Str) (e : Error) : Prop where
  at_ : ∃ pre post, s = pre ++ post ∧ CoordsOf pre e.pos ∧
    e.lineAfter = post.takeWhile (fun ch => ch != '\n' && ch != '\r') ∧
    slice s e.pos.startLine e.pos.n = some e.lineBefore

theorem inv_init (s : Str) : Inv s (Status.init s) := ⟨rfl, [], rfl, coords_nil⟩

theorem inv_initDebug (s : Str) (b : Bool) : Inv s (Status.initDebug s b) :=
  ⟨rfl, [], rfl, coords_nil⟩

theorem inv_get {s st st' c} (h : Inv s st) (hg : getChar st = .ok (st', c)) : Inv s st' := by
  obtain ⟨hi, ht, _, _, _, hp⟩ := getChar_ok hg
  obtain ⟨ht0, pre, hs, hc⟩ := h
  refine ⟨by rw [ht, ht0], pre ++ [c], ?_, ?_⟩
  · rw [hs, hi]; simp
  · rw [hp]; exact coords_step hc

theorem inv_err {s st d p e} (h : Inv s st) (hf : fromStatus st d p = some e) : ErrAt s e := by
  obtain ⟨ht, pre, hs, hc⟩ := h
  unfold fromStatus at hf
  rw [Option.map_eq_some_iff] at hf
  obtain ⟨lb, hsl, rfl⟩ := hf
  exact ⟨pre, st.itParsing, hs, hc, rfl, by rw [← ht]; exact hsl⟩

/-- Everything the parser carries around is about points of `s`. -/
structure InvP (s : Str) (st : Status) : Prop extends Inv s st where
  pot : ∀ e, st.potentialError = some e → ErrAt s e

theorem preserved_invP (R : SetOfRules) (s : Str) :
    Preserved R (fun _ => True) (InvP s) (ErrAt s) True where
  get h hg := ⟨inv_get h.toInv hg, by rw [(getChar_ok hg).2.2.1]; exact h.pot⟩
  push h _ _ := ⟨⟨h.text, h.at_⟩, h.pot⟩
  pot h he _ := ⟨⟨h.text, h.at_⟩, by intro e h'; cases h'; exact he⟩
  err h _ hf := inv_err h.toInv hf
  pan _ _ _ := trivial

theorem invP_init (s : Str) : InvP s (Status.init s) := ⟨inv_init s, by intro e h; cases h⟩
theorem invP_initDebug (s : Str) (b) : InvP s (Status.initDebug s b) :=
  ⟨inv_initDebug s b, by intro e h; cases h⟩

/-! ### Byte offsets of ASCII texts -/

theorem ascii_utf8Size {c : Char} (h : c.toNat < 128) : c.utf8Size = 1 := by
  unfold Char.utf8Size
  have : c.val ≤ 0x7f := by
    rw [UInt32.le_iff_toNat_le]
    have : c.val.toNat < 128 := h
    simpa using Nat.le_of_lt_succ this
  simp [this]

theorem ascii_cons {c s} (h : Ascii (c :: s)) : c.utf8Size = 1 ∧ Ascii s :=
  ⟨ascii_utf8Size (h c (by simp)), fun x hx => h x (by simp [hx])⟩

theorem byteLen_ascii {s : Str} (h : Ascii s) : byteLen s = s.length := by
  induction s with
  | nil => rfl
  | cons c s ih =>
    obtain ⟨h1, h2⟩ := ascii_cons h
    simp [byteLen, h1, ih h2, Nat.add_comm]

theorem length_le_byteLen (s : Str) : s.length ≤ byteLen s := by
  induction s with
  | nil => simp
  | cons c s ih =>
    have := c.utf8Size_pos
    simp only [byteLen, List.length_cons]; omega

theorem ascii_of_byteLen {s : Str} (h : byteLen s = s.length) : Ascii s := by
  induction s with
  | nil => intro c hc; simp at hc
  | cons c s ih =>
    have h1 := c.utf8Size_pos
    have h2 := length_le_byteLen s
    simp only [byteLen, List.length_cons] at h
    have h3 : c.utf8Size = 1 := by omega
    have h4 : byteLen s = s.length := by omega
    intro x hx
    rcases List.mem_cons.mp hx with rfl | hx
    · unfold Char.utf8Size at h3
      by_cases hv : x.val ≤ 0x7f
      · have : x.val.toNat ≤ 127 := by simpa [UInt32.le_iff_toNat_le] using hv
        exact Nat.lt_succ_of_le this
      · simp only at h3
        split at h3
        · exact absurd ‹_› hv
        · repeat' split at h3
          all_goals omega
    · exact ih h4 x hx

theorem byteLen_append (a b : Str) : byteLen (a ++ b) = byteLen a + byteLen b := by
  induction a with
  | nil => simp [byteLen]
  | cons c a ih => simp [byteLen, ih, Nat.add_assoc]

theorem dropBytes_ascii {s : Str} (h : Ascii s) : ∀ n, n ≤ s.length → dropBytes n s = some (s.drop n) := by
  induction s with
  | nil => intro n hn; simp at hn; subst hn; rfl
  | cons c s ih =>
    intro n hn
    obtain ⟨h1, h2⟩ := ascii_cons h
    cases n with
    | zero => rfl
    | succ n => simp only [dropBytes, h1]; simpa using ih h2 n (by simpa using hn)

theorem takeBytes_ascii {s : Str} (h : Ascii s) : ∀ n, n ≤ s.length → takeBytes n s = some (s.take n) := by
  induction s with
  | nil => intro n hn; simp at hn; subst hn; rfl
  | cons c s ih =>
    intro n hn
    obtain ⟨h1, h2⟩ := ascii_cons h
    cases n with
    | zero => rfl
    | succ n => simp only [takeBytes, h1]; simp [ih h2 n (by simpa using hn)]

theorem ascii_append_left {a b : Str} (h : Ascii (a ++ b)) : Ascii a := fun c hc => h c (by simp [hc])
theorem ascii_append_right {a b : Str} (h : Ascii (a ++ b)) : Ascii b := fun c hc => h c (by simp [hc])

/-- On ASCII text the slice taken for the message is the part of the line before the point. -/
theorem slice_line {pre post : Str} {p : Pos} (h : Ascii (pre ++ post)) (hc : CoordsOf pre p) :
    slice (pre ++ post) p.startLine p.n = some (lastLine pre) := by
  obtain ⟨p0, hp0, _⟩ := lastLine_split pre
  have hl := congrArg List.length hp0
  rw [List.length_append] at hl
  have hsl : p.startLine = p0.length := by rw [hc.startLine]; omega
  have hn : p.n = p0.length + (lastLine pre).length := by rw [hc.n]; exact hl
  unfold slice
  rw [if_pos (by omega)]
  have hd : dropBytes p.startLine (pre ++ post) = some (lastLine pre ++ post) := by
    rw [dropBytes_ascii h _ (by rw [List.length_append]; omega), hsl]
    conv_lhs => rw [hp0]
    simp
  have ha : Ascii (lastLine pre ++ post) := by
    rw [hp0, List.append_assoc] at h; exact ascii_append_right h
  rw [hd, Option.bind_some, takeBytes_ascii ha _ (by rw [List.length_append]; omega)]
  congr 1
  have : p.n - p.startLine = (lastLine pre).length := by omega
  rw [this]; simp

theorem fromStatus_ascii {s st} (hs : Ascii s) (h : Inv s st) (d p) :
    ∃ e, fromStatus st d p = some e := by
  obtain ⟨ht, pre, heq, hc⟩ := h
  unfold fromStatus
  rw [ht, heq, slice_line (heq ▸ hs) hc]
  exact ⟨_, rfl⟩

theorem preserved_ascii (R : SetOfRules) {s : Str} (hs : Ascii s) :
    Preserved R (fun _ => True) (InvP s) (ErrAt s) False where
  get := (preserved_invP R s).get
  push := (preserved_invP R s).push
  pot := (preserved_invP R s).pot
  err := (preserved_invP R s).err
  pan h _ hf := by
    obtain ⟨e, he⟩ := fromStatus_ascii hs h.toInv _ _
    rw [hf] at he; cases he

end DP
