/-
What the rules of JsonRules.lean derive.
-/
import Verif.Proofs.JsonRules

namespace DP
open Spec

abbrev JG : Str → Option Expr := denotes jsonRules

theorem jg_ws : JG c!"ws" = some (jMany (.or [jLit c!" ", jLit c!"\t", jLit c!"\n", jLit c!"\r"])) := by decide +kernel
theorem jg_word : JG c!"word" = some (.or [jLit c!"true", jLit c!"false", jLit c!"null"]) := by decide +kernel
theorem jg_digit : JG c!"digit" = some (.simple (.mtch [] [('0', '9')])) := by decide +kernel
theorem jg_number : JG c!"number" = some jNumberBody := by decide +kernel
theorem jg_hex : JG c!"hex" = some (.simple (.mtch [] [('0', '9'), ('A', 'F'), ('a', 'f')])) := by decide +kernel
theorem jg_char : JG c!"char" = some (.or [.simple (.mtch [] [(' ', '!'), ('#', '['), (']', '\x7f')]), .and [jLit c!"\\", jEscapeBody]]) := by decide +kernel
theorem jg_string : JG c!"string" = some (.and [jLit c!"\"", jMany (.ruleName c!"char"), jLit c!"\""]) := by decide +kernel
theorem jg_array : JG c!"array" = some (.and [jLit c!"[", .ruleName c!"ws", .or [jLit c!"]", jItemsBody]]) := by decide +kernel
theorem jg_member : JG c!"member" = some (.and [.ruleName c!"string", .ruleName c!"ws", jLit c!":", .ruleName c!"ws", .ruleName c!"value"]) := by decide +kernel
theorem jg_object : JG c!"object" = some (.and [jLit c!"{", .ruleName c!"ws", .or [jLit c!"}", jMembersBody]]) := by decide +kernel
theorem jg_value : JG c!"value" = some (.and [jValueBody, .ruleName c!"ws"]) := by decide +kernel
theorem jg_main : JG c!"main" = some (.and [.ruleName c!"ws", .ruleName c!"value"]) := by decide +kernel

theorem jg_text {n e u ns} (hn : JG n = some e) (h : Gen JG e u ns) : textL ns = u := derives_text json_ll1.1 h (json_ll1.1 n e hn)

/-! ### White space, numbers, words -/

theorem j_ws {u ns} : Gen JG (.ruleName c!"ws") u ns ↔ JBlank u ∧ ns = [.rule c!"ws" (u.map fun c => .val [c])] := by
  rw [derives_call jg_ws]
  have he : ∀ u ns, Gen JG (.or [jLit c!" ", jLit c!"\t", jLit c!"\n", jLit c!"\r"]) u ns ↔
      ∃ c, (c = ' ' ∨ c = '\t' ∨ c = '\n' ∨ c = '\r') ∧ u = [c] ∧ ns = [.val [c]] := by
    intro u ns
    rw [derives_or]
    constructor
    · rintro ⟨e, hm, h⟩
      simp only [List.mem_cons, List.not_mem_nil, or_false] at hm
      rcases hm with rfl | rfl | rfl | rfl
      · exact ⟨' ', .inl rfl, derives_lit.1 h⟩
      · exact ⟨'\t', .inr (.inl rfl), derives_lit.1 h⟩
      · exact ⟨'\n', .inr (.inr (.inl rfl)), derives_lit.1 h⟩
      · exact ⟨'\r', .inr (.inr (.inr rfl)), derives_lit.1 h⟩
    · rintro ⟨c, hc, rfl, rfl⟩
      rcases hc with rfl | rfl | rfl | rfl
      · exact ⟨jLit c!" ", by simp, .lit _⟩
      · exact ⟨jLit c!"\t", by simp, .lit _⟩
      · exact ⟨jLit c!"\n", by simp, .lit _⟩
      · exact ⟨jLit c!"\r", by simp, .lit _⟩
  constructor
  · rintro ⟨ms, h, rfl⟩
    obtain ⟨h1, rfl⟩ := (derives_chars he).1 h
    exact ⟨h1, rfl⟩
  · rintro ⟨h1, rfl⟩
    exact ⟨_, (derives_chars he).2 ⟨h1, rfl⟩, rfl⟩

theorem j_cls1 {a b : Char} (c : Char) : InClass [] [(a, b)] c ↔ a ≤ c ∧ c ≤ b := by
  simp only [InClass, List.not_mem_nil, false_or, List.mem_cons, or_false, exists_eq_left]
  rfl

theorem j_digit (u ns) : Gen JG (.ruleName c!"digit") u ns ↔ ∃ c, ('0' ≤ c ∧ c ≤ '9') ∧ u = [c] ∧ ns = [.rule c!"digit" [.val [c]]] := by
  rw [derives_call jg_digit]
  constructor
  · rintro ⟨ms, h, rfl⟩
    obtain ⟨c, hc, rfl, rfl⟩ := derives_cls.1 h
    exact ⟨c, (j_cls1 c).1 hc, rfl, rfl⟩
  · rintro ⟨c, hc, rfl, rfl⟩
    exact ⟨_, derives_cls.2 ⟨c, (j_cls1 c).2 hc, rfl, rfl⟩, rfl⟩

theorem j_number_sound {u ns} (h : Gen JG (.ruleName c!"number") u ns) : IsNumber u ∧ ∃ t, ns = [t] ∧ jsonOf t = some (.num u) := by
  rw [derives_call jg_number] at h
  obtain ⟨ms, h, rfl⟩ := h
  have ht := jg_text jg_number h
  refine ⟨?_, _, rfl, by simp [jsonOf, ht]⟩
  unfold jNumberBody at h
  rw [derives_cons] at h
  obtain ⟨m, r, _, _, hm, h, rfl, -⟩ := h
  rw [derives_cons] at h
  obtain ⟨i, r, _, _, hi, h, rfl, -⟩ := h
  rw [derives_cons] at h
  obtain ⟨f, r, _, _, hf, h, rfl, -⟩ := h
  rw [derives_cons] at h
  obtain ⟨x, r, _, _, hx, h, rfl, -⟩ := h
  obtain ⟨rfl, -⟩ := derives_nil.1 h
  refine ⟨m, i, f, x, by simp, ?_, ?_, ?_, ?_⟩
  · rcases derives_opt.1 hm with ⟨rfl, -⟩ | hm
    · exact .inl rfl
    · exact .inr (derives_lit.1 hm).1
  · obtain ⟨e, he, hi⟩ := derives_or.1 hi
    simp only [List.mem_cons, List.not_mem_nil, or_false] at he
    rcases he with rfl | rfl
    · exact .inl (derives_lit.1 hi).1
    · obtain ⟨a, b, _, _, ha, hb, rfl, -⟩ := derives_cons.1 hi
      obtain ⟨c, hc, rfl, -⟩ := derives_cls.1 ha
      rw [derives_cons] at hb
      obtain ⟨a, b', _, _, ha, hb, rfl, -⟩ := hb
      obtain ⟨rfl, -⟩ := derives_nil.1 hb
      have := (j_cls1 c).1 hc
      exact .inr ⟨c, a, by simp, this.1, this.2, ((derives_chars j_digit).1 ha).1⟩
  · rcases derives_opt.1 hf with ⟨rfl, -⟩ | hf
    · exact .inl rfl
    · obtain ⟨a, b, _, _, ha, hb, rfl, -⟩ := derives_cons.1 hf
      obtain ⟨rfl, -⟩ := derives_lit.1 ha
      rw [derives_cons] at hb
      obtain ⟨a, b', _, _, ha, hb, rfl, -⟩ := hb
      obtain ⟨rfl, -⟩ := derives_nil.1 hb
      have := (derives_chars1 j_digit).1 ha
      exact .inr ⟨a, by simp, this.1, this.2.1⟩
  · rcases derives_opt.1 hx with ⟨rfl, -⟩ | hx
    · exact .inl rfl
    · obtain ⟨a, b, _, _, ha, hb, rfl, -⟩ := derives_cons.1 hx
      obtain ⟨c, hc, rfl, -⟩ := derives_cls.1 ha
      rw [derives_cons] at hb
      obtain ⟨a, b', _, _, ha, hb, rfl, -⟩ := hb
      rw [derives_cons] at hb
      obtain ⟨d, b, _, _, hd, hb, rfl, -⟩ := hb
      obtain ⟨rfl, -⟩ := derives_nil.1 hb
      have := (derives_chars1 j_digit).1 hd
      refine .inr ⟨c, a, d, by simp, by simpa [InClass] using hc, ?_, this.1, this.2.1⟩
      rcases derives_opt.1 ha with ⟨rfl, -⟩ | ha
      · exact .inl rfl
      · obtain ⟨e, he, ha⟩ := derives_or.1 ha
        simp only [List.mem_cons, List.not_mem_nil, or_false] at he
        rcases he with rfl | rfl
        · exact .inr (.inl (derives_lit.1 ha).1)
        · exact .inr (.inr (derives_lit.1 ha).1)

/-- a sequence that ends here -/
theorem derives_one {G : Str → Option Expr} {e u ns} (h : Gen G e u ns) : Gen G (.and [e]) u ns := by
  have := Gen.cons h .nil
  rwa [List.append_nil, List.append_nil] at this

theorem j_number_complete {u} (h : IsNumber u) : ∃ ns, Gen JG (.ruleName c!"number") u ns := by
  obtain ⟨m, i, f, x, rfl, hm, hi, hf, hx⟩ := h
  have h1 : ∃ ns, Gen JG (jOpt (jLit c!"-")) m ns := by
    rcases hm with rfl | rfl
    · exact ⟨_, derives_opt.2 (.inl ⟨rfl, rfl⟩)⟩
    · exact ⟨_, derives_opt.2 (.inr (.lit _))⟩
  have h2 : ∃ ns, Gen JG (.or [jLit c!"0", .and [.simple (.mtch [] [('1', '9')]), jMany (.ruleName c!"digit")]]) i ns := by
    rcases hi with rfl | ⟨d, ds, rfl, ha, hb, hd⟩
    · exact ⟨_, .or List.mem_cons_self (.lit c!"0")⟩
    · exact ⟨_, .or (List.mem_cons_of_mem _ List.mem_cons_self) (.cons (.cls ((j_cls1 d).2 ⟨ha, hb⟩)) (derives_one ((derives_chars j_digit).2 ⟨hd, rfl⟩)))⟩
  have h3 : ∃ ns, Gen JG (jOpt (.and [jLit c!".", jSome (.ruleName c!"digit")])) f ns := by
    rcases hf with rfl | ⟨ds, rfl, h0, hd⟩
    · exact ⟨_, derives_opt.2 (.inl ⟨rfl, rfl⟩)⟩
    · exact ⟨_, derives_opt.2 (.inr (.cons (.lit c!".") (derives_one ((derives_chars1 j_digit).2 ⟨h0, hd, rfl⟩))))⟩
  have h4 : ∃ ns, Gen JG (jOpt (.and [.simple (.mtch ['e', 'E'] []), jOpt (.or [jLit c!"+", jLit c!"-"]), jSome (.ruleName c!"digit")])) x ns := by
    rcases hx with rfl | ⟨e, sg, ds, rfl, he, hs, h0, hd⟩
    · exact ⟨_, derives_opt.2 (.inl ⟨rfl, rfl⟩)⟩
    · have h5 : ∃ ns, Gen JG (jOpt (.or [jLit c!"+", jLit c!"-"])) sg ns := by
        rcases hs with rfl | rfl | rfl
        · exact ⟨_, derives_opt.2 (.inl ⟨rfl, rfl⟩)⟩
        · exact ⟨_, derives_opt.2 (.inr (.or List.mem_cons_self (.lit c!"+")))⟩
        · exact ⟨_, derives_opt.2 (.inr (.or (List.mem_cons_of_mem _ List.mem_cons_self) (.lit c!"-")))⟩
      obtain ⟨_, h5⟩ := h5
      exact ⟨_, derives_opt.2 (.inr (.cons (.cls (c := e) (by simpa [InClass] using he)) (.cons h5 (derives_one ((derives_chars1 j_digit).2 ⟨h0, hd, rfl⟩)))))⟩
  obtain ⟨_, h1⟩ := h1
  obtain ⟨_, h2⟩ := h2
  obtain ⟨_, h3⟩ := h3
  obtain ⟨_, h4⟩ := h4
  rw [List.append_assoc, List.append_assoc]
  exact ⟨_, .call jg_number (.cons h1 (.cons h2 (.cons h3 (derives_one h4))))⟩

theorem j_word {u ns} : Gen JG (.ruleName c!"word") u ns ↔ (u = c!"true" ∨ u = c!"false" ∨ u = c!"null") ∧ ns = [.rule c!"word" [.val u]] := by
  rw [derives_call jg_word]
  constructor
  · rintro ⟨ms, h, rfl⟩
    obtain ⟨e, he, h⟩ := derives_or.1 h
    simp only [List.mem_cons, List.not_mem_nil, or_false] at he
    rcases he with rfl | rfl | rfl <;> obtain ⟨rfl, rfl⟩ := derives_lit.1 h <;> simp
  · rintro ⟨h, rfl⟩
    refine ⟨[.val u], ?_, rfl⟩
    rcases h with rfl | rfl | rfl
    · exact .or List.mem_cons_self (.lit c!"true")
    · exact .or (List.mem_cons_of_mem _ List.mem_cons_self) (.lit c!"false")
    · exact .or (List.mem_cons_of_mem _ (List.mem_cons_of_mem _ List.mem_cons_self)) (.lit c!"null")

/-! ### Strings -/

theorem j_char_range (c : Char) : InClass [] [(' ', '!'), ('#', '['), (']', '\x7f')] c ↔ 32 ≤ c.toNat ∧ c.toNat < 128 ∧ c ≠ '"' ∧ c ≠ '\\' := by
  have h1 : c = '"' ↔ c.toNat = 34 := ⟨fun h => by subst h; rfl, fun h => Char.ext (UInt32.toNat_inj.1 h)⟩
  have h2 : c = '\\' ↔ c.toNat = 92 := ⟨fun h => by subst h; rfl, fun h => Char.ext (UInt32.toNat_inj.1 h)⟩
  rw [ne_eq, ne_eq, h1, h2]
  have e1 : ' '.toNat = 32 := rfl
  have e2 : '!'.toNat = 33 := rfl
  have e3 : '#'.toNat = 35 := rfl
  have e4 : '['.toNat = 91 := rfl
  have e5 : ']'.toNat = 93 := rfl
  have e6 : '\x7f'.toNat = 127 := rfl
  simp only [InClass, List.not_mem_nil, false_or, List.mem_cons, or_false, exists_eq_or_imp, exists_eq_left, e1, e2, e3, e4, e5, e6]
  omega

theorem j_hex_range (c : Char) : InClass [] [('0', '9'), ('A', 'F'), ('a', 'f')] c ↔ (jHex c).isSome := by
  unfold jHex
  simp only [InClass, List.not_mem_nil, false_or, List.mem_cons, or_false, exists_eq_or_imp, exists_eq_left, Char.le_def, UInt32.le_iff_toNat_le, Char.toNat]
  split
  · simp_all
  · split
    · simp_all
    · split <;> simp_all

theorem j_hex {u ns} : Gen JG (.ruleName c!"hex") u ns ↔ ∃ c x, jHex c = some x ∧ u = [c] ∧ ns = [.rule c!"hex" [.val [c]]] := by
  rw [derives_call jg_hex]
  constructor
  · rintro ⟨ms, h, rfl⟩
    obtain ⟨c, hc, rfl, rfl⟩ := derives_cls.1 h
    obtain ⟨x, hx⟩ := Option.isSome_iff_exists.1 ((j_hex_range c).1 hc)
    exact ⟨c, x, hx, rfl, rfl⟩
  · rintro ⟨c, x, hc, rfl, rfl⟩
    exact ⟨_, derives_cls.2 ⟨c, (j_hex_range c).2 (by rw [hc]; rfl), rfl, rfl⟩, rfl⟩

theorem unitOf_char {n u} (h : JChar n u) : unitOf u = n := by
  cases h with
  | plain => rfl
  | short h =>
    simp only [shortEscapes, List.mem_cons, Prod.mk.injEq, List.not_mem_nil, or_false] at h
    rcases h with ⟨rfl, rfl⟩ | ⟨rfl, rfl⟩ | ⟨rfl, rfl⟩ | ⟨rfl, rfl⟩ | ⟨rfl, rfl⟩ | ⟨rfl, rfl⟩ | ⟨rfl, rfl⟩ | ⟨rfl, rfl⟩ <;> decide
  | hex ha hb hc hd => simp [unitOf, ha, hb, hc, hd]

theorem j_escapes (c : Char) : InClass ['"', '\\', '/', 'b', 'f', 'n', 'r', 't'] [] c ↔ ∃ n, (c, n) ∈ shortEscapes := by
  simp only [InClass, shortEscapes, List.mem_cons, List.not_mem_nil, or_false, Prod.mk.injEq, false_and, exists_false]
  constructor
  · rintro (h | h | h | h | h | h | h | h)
    · exact ⟨34, by simp [h]⟩
    · exact ⟨92, by simp [h]⟩
    · exact ⟨47, by simp [h]⟩
    · exact ⟨8, by simp [h]⟩
    · exact ⟨12, by simp [h]⟩
    · exact ⟨10, by simp [h]⟩
    · exact ⟨13, by simp [h]⟩
    · exact ⟨9, by simp [h]⟩
  · rintro ⟨n, h⟩
    rcases h with h | h | h | h | h | h | h | h <;> simp [h.1]

theorem j_char_sound {u ns} (h : Gen JG (.ruleName c!"char") u ns) : ∃ n, JChar n u ∧ unitsIn ns = [n] := by
  rw [derives_call jg_char] at h
  obtain ⟨ms, h, rfl⟩ := h
  have ht := jg_text jg_char h
  suffices h : ∃ n, JChar n u by
    obtain ⟨n, hn⟩ := h
    exact ⟨n, hn, by simp [unitsIn, ht, unitOf_char hn]⟩
  rw [derives_or] at h
  obtain ⟨e, he, h⟩ := h
  simp only [List.mem_cons, List.not_mem_nil, or_false] at he
  rcases he with rfl | rfl
  · obtain ⟨c, hc, rfl, -⟩ := derives_cls.1 h
    obtain ⟨h1, h2, h3, h4⟩ := (j_char_range c).1 hc
    exact ⟨_, .plain h1 h2 h3 h4⟩
  · obtain ⟨a, b, _, _, ha, hb, rfl, -⟩ := derives_cons.1 h
    obtain ⟨rfl, -⟩ := derives_lit.1 ha
    rw [derives_cons] at hb
    obtain ⟨b, r, _, _, hb, hr, rfl, -⟩ := hb
    obtain ⟨rfl, -⟩ := derives_nil.1 hr
    clear h
    obtain ⟨e, he, h⟩ := derives_or.1 hb
    simp only [List.mem_cons, List.not_mem_nil, or_false] at he
    rcases he with rfl | rfl
    · obtain ⟨c, hc, rfl, -⟩ := derives_cls.1 h
      obtain ⟨n, hn⟩ := (j_escapes c).1 hc
      exact ⟨n, .short hn⟩
    · rw [derives_cons] at h
      obtain ⟨u0, r, _, _, h0, h, rfl, -⟩ := h
      rw [derives_cons] at h
      obtain ⟨u1, r, _, _, h1, h, rfl, -⟩ := h
      rw [derives_cons] at h
      obtain ⟨u2, r, _, _, h2, h, rfl, -⟩ := h
      rw [derives_cons] at h
      obtain ⟨u3, r, _, _, h3, h, rfl, -⟩ := h
      rw [derives_cons] at h
      obtain ⟨u4, r, _, _, h4, h, rfl, -⟩ := h
      obtain ⟨rfl, -⟩ := derives_nil.1 h
      obtain ⟨rfl, -⟩ := derives_lit.1 h0
      obtain ⟨_, _, x1, rfl, -⟩ := j_hex.1 h1
      obtain ⟨_, _, x2, rfl, -⟩ := j_hex.1 h2
      obtain ⟨_, _, x3, rfl, -⟩ := j_hex.1 h3
      obtain ⟨_, _, x4, rfl, -⟩ := j_hex.1 h4
      exact ⟨_, .hex x1 x2 x3 x4⟩

theorem j_char_complete {n u} (h : JChar n u) : ∃ ns, Gen JG (.ruleName c!"char") u ns := by
  cases h with
  | plain h1 h2 h3 h4 => exact ⟨_, .call jg_char (.or List.mem_cons_self (.cls ((j_char_range _).2 ⟨h1, h2, h3, h4⟩)))⟩
  | short h =>
    exact ⟨_, .call jg_char (.or (List.mem_cons_of_mem _ List.mem_cons_self) (.cons (.lit c!"\\") (derives_one (.or List.mem_cons_self (.cls ((j_escapes _).2 ⟨_, h⟩))))))⟩
  | hex h1 h2 h3 h4 =>
    refine ⟨_, .call jg_char (.or (List.mem_cons_of_mem _ List.mem_cons_self) (.cons (.lit c!"\\") (derives_one (.or (List.mem_cons_of_mem _ List.mem_cons_self)
      (.cons (.lit c!"u") (.cons (j_hex.2 ⟨_, _, h1, rfl, rfl⟩) (.cons (j_hex.2 ⟨_, _, h2, rfl, rfl⟩) (.cons (j_hex.2 ⟨_, _, h3, rfl, rfl⟩) (derives_one (j_hex.2 ⟨_, _, h4, rfl, rfl⟩))))))))))⟩

theorem unitsIn_append (l l' : List Node) : unitsIn (l ++ l') = unitsIn l ++ unitsIn l' := by
  induction l with
  | nil => rfl
  | cons n l ih => cases n <;> simp [unitsIn, ih]

theorem j_chars_sound {u ns} (h : Gen JG (jMany (.ruleName c!"char")) u ns) : JChars (unitsIn ns) u := by
  refine derives_star (P := fun u ns => JChars (unitsIn ns) u) .nil ?_ h
  intro u ns v ms h _ ih
  obtain ⟨n, hn, hu⟩ := j_char_sound h
  rw [unitsIn_append, hu]
  exact .cons hn ih

theorem j_chars_complete {us u} (h : JChars us u) : ∃ ns, Gen JG (jMany (.ruleName c!"char")) u ns ∧ unitsIn ns = us := by
  induction h with
  | nil => exact ⟨[], derives_star_nil, rfl⟩
  | cons h _ ih =>
    obtain ⟨ns, hg⟩ := j_char_complete h
    obtain ⟨ms, hg', hu⟩ := ih
    obtain ⟨m, hm, hv⟩ := j_char_sound hg
    refine ⟨_, derives_star_cons hg hg', ?_⟩
    rw [unitsIn_append, hu, hv, ← unitOf_char h, ← unitOf_char hm]
    rfl

theorem j_string_sound {u ns} (h : Gen JG (.ruleName c!"string") u ns) : ∃ us t, StrText us u ∧ ns = [t] ∧ jsonOf t = some (.str us) := by
  rw [derives_call jg_string] at h
  obtain ⟨ms, h, rfl⟩ := h
  rw [derives_cons] at h
  obtain ⟨a, r, _, _, ha, h, rfl, rfl⟩ := h
  rw [derives_cons] at h
  obtain ⟨b, r, _, _, hb, h, rfl, rfl⟩ := h
  rw [derives_cons] at h
  obtain ⟨c, r, _, _, hc, h, rfl, rfl⟩ := h
  obtain ⟨rfl, rfl⟩ := derives_nil.1 h
  obtain ⟨rfl, rfl⟩ := derives_lit.1 ha
  obtain ⟨rfl, rfl⟩ := derives_lit.1 hc
  exact ⟨_, _, ⟨b, by simp, j_chars_sound hb⟩, rfl, by simp [jsonOf, unitsIn, unitsIn_append]⟩

theorem j_string_complete {us u} (h : StrText us u) : ∃ t, Gen JG (.ruleName c!"string") u [t] ∧ jsonOf t = some (.str us) := by
  obtain ⟨v, rfl, h⟩ := h
  obtain ⟨ns, hg, hu⟩ := j_chars_complete h
  refine ⟨_, .call jg_string (.cons (.lit c!"\"") (.cons hg (derives_one (.lit c!"\"")))), ?_⟩
  simp [jsonOf, unitsIn, unitsIn_append, hu]

/-! ### Values: what is derived is JSON -/

theorem valuesIn_append (l l' : List Node) : valuesIn (l ++ l') = valuesIn l ++ valuesIn l' := by
  induction l with
  | nil => rfl
  | cons n l ih => simp [valuesIn, ih]

theorem membersIn_append (l l' : List Node) : membersIn (l ++ l') = membersIn l ++ membersIn l' := by
  induction l with
  | nil => rfl
  | cons n l ih => simp [membersIn, ih]

/-- what the rule `value` derives -/
def JValued (u : Str) (ns : List Node) : Prop := ∃ t v x w, ns = [t] ∧ u = x ++ w ∧ JBlank w ∧ JText (.value v) x ∧ jsonOf t = some v

/-- what the rule `member` derives -/
def JMember (u : Str) (ns : List Node) : Prop := ∃ t k y w1 w2 v x w, ns = [t] ∧ u = y ++ (w1 ++ (':' :: (w2 ++ (x ++ w)))) ∧
  StrText k y ∧ JBlank w1 ∧ JBlank w2 ∧ JText (.value v) x ∧ JBlank w ∧ memberOf t = [(k, v)]

theorem j_member_sound {n : Nat} (ih : ∀ u ns, u.length < n → Gen JG (.ruleName c!"value") u ns → JValued u ns)
    {u ns} (hl : u.length ≤ n) (h : Gen JG (.ruleName c!"member") u ns) : JMember u ns := by
  rw [derives_call jg_member] at h
  obtain ⟨ms, h, rfl⟩ := h
  rw [derives_cons] at h
  obtain ⟨y, r, _, _, hy, h, rfl, rfl⟩ := h
  rw [derives_cons] at h
  obtain ⟨w1, r, _, _, hw1, h, rfl, rfl⟩ := h
  rw [derives_cons] at h
  obtain ⟨c, r, _, _, hc, h, rfl, rfl⟩ := h
  rw [derives_cons] at h
  obtain ⟨w2, r, _, _, hw2, h, rfl, rfl⟩ := h
  rw [derives_cons] at h
  obtain ⟨x, r, _, _, hx, h, rfl, rfl⟩ := h
  obtain ⟨rfl, rfl⟩ := derives_nil.1 h
  obtain ⟨rfl, rfl⟩ := derives_lit.1 hc
  obtain ⟨k, t, hk, rfl, htk⟩ := j_string_sound hy
  obtain ⟨b1, rfl⟩ := j_ws.1 hw1
  obtain ⟨b2, rfl⟩ := j_ws.1 hw2
  obtain ⟨t', v, x, w, rfl, rfl, hw, hv, htv⟩ := ih _ _ (by simp only [List.length_append, List.length_cons, List.length_nil] at hl ⊢; omega) hx
  exact ⟨_, k, y, w1, w2, v, x, w, rfl, by simp, hk, b1, b2, hv, hw, by simp [memberOf, valuesIn, htk, htv, jsonOf]⟩

theorem j_value_sound : ∀ n u ns, u.length < n → Gen JG (.ruleName c!"value") u ns → JValued u ns := by
  intro n
  induction n with
  | zero => intro u ns h; omega
  | succ n ih =>
    intro u ns hl h
    rw [derives_call jg_value] at h
    obtain ⟨ms, h, rfl⟩ := h
    rw [derives_cons] at h
    obtain ⟨x, r, ns, _, hx, h, rfl, rfl⟩ := h
    rw [derives_cons] at h
    obtain ⟨w, r, _, _, hw, h, rfl, rfl⟩ := h
    obtain ⟨rfl, rfl⟩ := derives_nil.1 h
    rw [j_ws] at hw
    obtain ⟨hw, rfl⟩ := hw
    suffices hs : ∃ t v, ns = [t] ∧ JText (.value v) x ∧ jsonOf t = some v by
      obtain ⟨t, v, rfl, hv, ht⟩ := hs
      exact ⟨_, v, x, w, rfl, by simp, hw, hv, by simp [jsonOf, valuesIn, ht]⟩
    rw [jValueBody, derives_or] at hx
    obtain ⟨e, he, hx⟩ := hx
    simp only [List.length_append, List.length_nil] at hl
    simp only [List.mem_cons, List.not_mem_nil, or_false] at he
    rcases he with rfl | rfl | rfl | rfl | rfl
    · rw [derives_call jg_object] at hx
      obtain ⟨ms, h, rfl⟩ := hx
      refine ⟨_, .obj (membersIn ms), rfl, ?_, by simp [jsonOf]⟩
      rw [derives_cons] at h
      obtain ⟨a, r, _, _, ha, h, rfl, rfl⟩ := h
      rw [derives_cons] at h
      obtain ⟨w0, r, _, _, hw0, h, rfl, rfl⟩ := h
      rw [derives_cons] at h
      obtain ⟨b, r, _, _, hb, h, rfl, rfl⟩ := h
      obtain ⟨rfl, rfl⟩ := derives_nil.1 h
      obtain ⟨rfl, rfl⟩ := derives_lit.1 ha
      rw [j_ws] at hw0
      obtain ⟨hw0, rfl⟩ := hw0
      rw [derives_or] at hb
      obtain ⟨e, he, hb⟩ := hb
      simp only [List.mem_cons, List.not_mem_nil, or_false] at he
      rcases he with rfl | rfl
      · obtain ⟨rfl, rfl⟩ := derives_lit.1 hb
        have := JText.obj_nil hw0
        simpa [membersIn, memberOf] using this
      · rw [jMembersBody, derives_cons] at hb
        obtain ⟨p, r, mp, _, hp, h, rfl, rfl⟩ := hb
        rw [derives_cons] at h
        obtain ⟨q, r, mq, _, hq, h, rfl, rfl⟩ := h
        rw [derives_cons] at h
        obtain ⟨z, r, _, _, hz, h, rfl, rfl⟩ := h
        obtain ⟨rfl, rfl⟩ := derives_nil.1 h
        obtain ⟨rfl, rfl⟩ := derives_lit.1 hz
        simp only [List.length_append, List.length_cons, List.length_nil] at hl
        have key : q.length ≤ n → ∀ w k y w1 w2 v u w', JBlank w → StrText k y → JBlank w1 → JBlank w2 → JText (.value v) u → JBlank w' →
            JText (.members ((k, v) :: membersIn mq)) (w ++ (y ++ (w1 ++ (':' :: (w2 ++ (u ++ (w' ++ q))))))) := by
          refine derives_star (P := fun q mq => q.length ≤ n → ∀ w k y w1 w2 v u w', JBlank w → StrText k y → JBlank w1 → JBlank w2 → JText (.value v) u → JBlank w' →
            JText (.members ((k, v) :: membersIn mq)) (w ++ (y ++ (w1 ++ (':' :: (w2 ++ (u ++ (w' ++ q)))))))) ?_ ?_ hq
          · intro _ w k y w1 w2 v u w' h1 h2 h3 h4 h5 h6
            have := JText.member h1 h2 h3 h4 h5 h6
            simpa [membersIn] using this
          · intro s ns s' ms h _ ihq hl w k y w1 w2 v u w' h1 h2 h3 h4 h5 h6
            rw [derives_cons] at h
            obtain ⟨a, r, _, _, ha, h, rfl, rfl⟩ := h
            rw [derives_cons] at h
            obtain ⟨w0, r, _, _, hw0, h, rfl, rfl⟩ := h
            rw [derives_cons] at h
            obtain ⟨b, r, _, _, hb, h, rfl, rfl⟩ := h
            obtain ⟨rfl, rfl⟩ := derives_nil.1 h
            obtain ⟨rfl, rfl⟩ := derives_lit.1 ha
            rw [j_ws] at hw0
            obtain ⟨hw0, rfl⟩ := hw0
            simp only [List.length_append, List.length_cons, List.length_nil] at hl
            obtain ⟨t, k', y', w1', w2', v', x', w'', rfl, rfl, g1, g2, g3, g4, g5, ht⟩ := j_member_sound ih (by omega) hb
            have := JText.members h1 h2 h3 h4 h5 h6 (ihq (by omega) _ _ _ _ _ _ _ _ hw0 g1 g2 g3 g4 g5)
            simpa [membersIn, membersIn_append, memberOf, ht] using this
        obtain ⟨t, k', y', w1', w2', v', x', w'', rfl, rfl, g1, g2, g3, g4, g5, ht⟩ := j_member_sound ih (by omega) hp
        have := JText.obj (key (by omega) _ _ _ _ _ _ _ _ hw0 g1 g2 g3 g4 g5)
        simpa [membersIn, membersIn_append, memberOf, ht] using this
    · rw [derives_call jg_array] at hx
      obtain ⟨ms, h, rfl⟩ := hx
      refine ⟨_, .arr (valuesIn ms), rfl, ?_, by simp [jsonOf]⟩
      rw [derives_cons] at h
      obtain ⟨a, r, _, _, ha, h, rfl, rfl⟩ := h
      rw [derives_cons] at h
      obtain ⟨w0, r, _, _, hw0, h, rfl, rfl⟩ := h
      rw [derives_cons] at h
      obtain ⟨b, r, _, _, hb, h, rfl, rfl⟩ := h
      obtain ⟨rfl, rfl⟩ := derives_nil.1 h
      obtain ⟨rfl, rfl⟩ := derives_lit.1 ha
      rw [j_ws] at hw0
      obtain ⟨hw0, rfl⟩ := hw0
      rw [derives_or] at hb
      obtain ⟨e, he, hb⟩ := hb
      simp only [List.mem_cons, List.not_mem_nil, or_false] at he
      rcases he with rfl | rfl
      · obtain ⟨rfl, rfl⟩ := derives_lit.1 hb
        have := JText.arr_nil hw0
        simpa [valuesIn, jsonOf] using this
      · rw [jItemsBody, derives_cons] at hb
        obtain ⟨p, r, mp, _, hp, h, rfl, rfl⟩ := hb
        rw [derives_cons] at h
        obtain ⟨q, r, mq, _, hq, h, rfl, rfl⟩ := h
        rw [derives_cons] at h
        obtain ⟨z, r, _, _, hz, h, rfl, rfl⟩ := h
        obtain ⟨rfl, rfl⟩ := derives_nil.1 h
        obtain ⟨rfl, rfl⟩ := derives_lit.1 hz
        simp only [List.length_append, List.length_cons, List.length_nil] at hl
        have key : q.length ≤ n → ∀ w v u w', JBlank w → JText (.value v) u → JBlank w' →
            JText (.items (v :: valuesIn mq)) (w ++ (u ++ (w' ++ q))) := by
          refine derives_star (P := fun q mq => q.length ≤ n → ∀ w v u w', JBlank w → JText (.value v) u → JBlank w' →
            JText (.items (v :: valuesIn mq)) (w ++ (u ++ (w' ++ q)))) ?_ ?_ hq
          · intro _ w v u w' h1 h2 h3
            have := JText.item h1 h2 h3
            simpa [valuesIn] using this
          · intro s ns s' ms h _ ihq hl w v u w' h1 h2 h3
            rw [derives_cons] at h
            obtain ⟨a, r, _, _, ha, h, rfl, rfl⟩ := h
            rw [derives_cons] at h
            obtain ⟨w0, r, _, _, hw0, h, rfl, rfl⟩ := h
            rw [derives_cons] at h
            obtain ⟨b, r, _, _, hb, h, rfl, rfl⟩ := h
            obtain ⟨rfl, rfl⟩ := derives_nil.1 h
            obtain ⟨rfl, rfl⟩ := derives_lit.1 ha
            rw [j_ws] at hw0
            obtain ⟨hw0, rfl⟩ := hw0
            simp only [List.length_append, List.length_cons, List.length_nil] at hl
            obtain ⟨t, v', x', w'', rfl, rfl, g1, g2, ht⟩ := ih _ _ (by omega) hb
            have := JText.items h1 h2 h3 (ihq (by omega) _ _ _ _ hw0 g2 g1)
            simpa [valuesIn, valuesIn_append, jsonOf, ht] using this
        obtain ⟨t, v', x', w'', rfl, rfl, g1, g2, ht⟩ := ih _ _ (by omega) hp
        have := JText.arr (key (by omega) _ _ _ _ hw0 g2 g1)
        simpa [valuesIn, valuesIn_append, jsonOf, ht] using this
    · obtain ⟨us, t, hs, rfl, ht⟩ := j_string_sound hx
      exact ⟨t, _, rfl, .str hs, ht⟩
    · obtain ⟨hn, t, rfl, ht⟩ := j_number_sound hx
      exact ⟨t, _, rfl, .num hn, ht⟩
    · obtain ⟨hu, rfl⟩ := j_word.1 hx
      rcases hu with rfl | rfl | rfl
      · exact ⟨_, _, rfl, .true, by simp [jsonOf, textL, leavesL, leaves]⟩
      · exact ⟨_, _, rfl, .false, by simp [jsonOf, textL, leavesL, leaves]⟩
      · exact ⟨_, _, rfl, .null, by simp [jsonOf, textL, leavesL, leaves]⟩

/-! ### JSON is derived -/

theorem j_value_of {u t v w} (h : Gen JG jValueBody u [t]) (ht : jsonOf t = some v) (hw : JBlank w) :
    ∃ t', Gen JG (.ruleName c!"value") (u ++ w) [t'] ∧ jsonOf t' = some v :=
  ⟨_, .call jg_value (.cons h (derives_one (j_ws.2 ⟨hw, rfl⟩))), by simp [jsonOf, valuesIn, ht]⟩

theorem j_member_of {k y w1 w2 u t v w} (hk : StrText k y) (h1 : JBlank w1) (h2 : JBlank w2) (h : Gen JG jValueBody u [t]) (ht : jsonOf t = some v) (hw : JBlank w) :
    ∃ t', Gen JG (.ruleName c!"member") (y ++ (w1 ++ (':' :: (w2 ++ (u ++ w))))) [t'] ∧ memberOf t' = [(k, v)] := by
  obtain ⟨tk, hk, htk⟩ := j_string_complete hk
  obtain ⟨tv, hv, htv⟩ := j_value_of h ht hw
  exact ⟨_, .call jg_member (.cons hk (.cons (j_ws.2 ⟨h1, rfl⟩) (.cons (.lit c!":") (.cons (j_ws.2 ⟨h2, rfl⟩) (derives_one hv))))),
    by simp [memberOf, valuesIn, htk, htv, jsonOf]⟩

/-- what has to be derived for each kind of text -/
def JBuilt : JPiece → Str → Prop
  | .value v, u => ∃ t, Gen JG jValueBody u [t] ∧ jsonOf t = some v
  | .items vs, u => ∃ w a b ms ms', u = w ++ (a ++ b) ∧ JBlank w ∧ Gen JG (.ruleName c!"value") a ms ∧
      Gen JG (jMany (.and [jLit c!",", .ruleName c!"ws", .ruleName c!"value"])) b ms' ∧ valuesIn (ms ++ ms') = vs
  | .members vs, u => ∃ w a b ms ms', u = w ++ (a ++ b) ∧ JBlank w ∧ Gen JG (.ruleName c!"member") a ms ∧
      Gen JG (jMany (.and [jLit c!",", .ruleName c!"ws", .ruleName c!"member"])) b ms' ∧ membersIn (ms ++ ms') = vs

theorem j_built {p u} (h : JText p u) : JBuilt p u := by
  induction h with
  | null => exact ⟨_, .or (by simp) (j_word.2 ⟨.inr (.inr rfl), rfl⟩), by simp [jsonOf, textL, leavesL, leaves]⟩
  | true => exact ⟨_, .or (by simp) (j_word.2 ⟨.inl rfl, rfl⟩), by simp [jsonOf, textL, leavesL, leaves]⟩
  | false => exact ⟨_, .or (by simp) (j_word.2 ⟨.inr (.inl rfl), rfl⟩), by simp [jsonOf, textL, leavesL, leaves]⟩
  | num h =>
    obtain ⟨ns, hg⟩ := j_number_complete h
    obtain ⟨-, t, rfl, ht⟩ := j_number_sound hg
    exact ⟨t, .or (by simp) hg, ht⟩
  | str h =>
    obtain ⟨t, hg, ht⟩ := j_string_complete h
    exact ⟨t, .or (by simp) hg, ht⟩
  | arr_nil h =>
    exact ⟨_, .or (e := .ruleName c!"array") (by simp) (.call jg_array (.cons (.lit c!"[") (.cons (j_ws.2 ⟨h, rfl⟩) (derives_one (.or List.mem_cons_self (.lit c!"]")))))),
      by simp [jsonOf, valuesIn]⟩
  | obj_nil h =>
    exact ⟨_, .or (e := .ruleName c!"object") (by simp) (.call jg_object (.cons (.lit c!"{") (.cons (j_ws.2 ⟨h, rfl⟩) (derives_one (.or List.mem_cons_self (.lit c!"}")))))),
      by simp [jsonOf, membersIn, memberOf]⟩
  | arr _ ih =>
    obtain ⟨w, a, b, ms, ms', rfl, hw, ha, hb, hv⟩ := ih
    have := Gen.or (e := .ruleName c!"array") (es := [.ruleName c!"object", .ruleName c!"array", .ruleName c!"string", .ruleName c!"number", .ruleName c!"word"]) (by simp)
      (.call jg_array (.cons (.lit c!"[") (.cons (j_ws.2 ⟨hw, rfl⟩) (derives_one (.or (List.mem_cons_of_mem _ List.mem_cons_self) (.cons ha (.cons hb (derives_one (.lit c!"]")))))))))
    refine ⟨_, by simpa [jValueBody] using this, ?_⟩
    rw [← hv]
    simp [jsonOf, valuesIn, valuesIn_append]
  | obj _ ih =>
    obtain ⟨w, a, b, ms, ms', rfl, hw, ha, hb, hv⟩ := ih
    have := Gen.or (e := .ruleName c!"object") (es := [.ruleName c!"object", .ruleName c!"array", .ruleName c!"string", .ruleName c!"number", .ruleName c!"word"]) (by simp)
      (.call jg_object (.cons (.lit c!"{") (.cons (j_ws.2 ⟨hw, rfl⟩) (derives_one (.or (List.mem_cons_of_mem _ List.mem_cons_self) (.cons ha (.cons hb (derives_one (.lit c!"}")))))))))
    refine ⟨_, by simpa [jValueBody] using this, ?_⟩
    rw [← hv]
    simp [jsonOf, membersIn, membersIn_append, memberOf]
  | item h1 _ h3 ih =>
    obtain ⟨t, hg, ht⟩ := ih
    obtain ⟨t', hg', ht'⟩ := j_value_of hg ht h3
    exact ⟨_, _, [], _, [], by rw [List.append_nil], h1, hg', derives_star_nil, by simp [valuesIn, ht']⟩
  | items h1 _ h3 _ ih ih' =>
    obtain ⟨t, hg, ht⟩ := ih
    obtain ⟨t', hg', ht'⟩ := j_value_of hg ht h3
    obtain ⟨w, a, b, ms, ms', rfl, hw, ha, hb, hv⟩ := ih'
    refine ⟨_, _, _, _, _, ?_, h1, hg', derives_star_cons (.cons (.lit c!",") (.cons (j_ws.2 ⟨hw, rfl⟩) (derives_one ha))) hb, ?_⟩
    · simp
    · rw [← hv]; simp [valuesIn, valuesIn_append, ht', jsonOf]
  | member h1 h2 h3 h4 _ h6 ih =>
    obtain ⟨t, hg, ht⟩ := ih
    obtain ⟨t', hg', ht'⟩ := j_member_of h2 h3 h4 hg ht h6
    exact ⟨_, _, [], _, [], by rw [List.append_nil], h1, hg', derives_star_nil, by simp [membersIn, ht']⟩
  | members h1 h2 h3 h4 _ h6 _ ih ih' =>
    obtain ⟨t, hg, ht⟩ := ih
    obtain ⟨t', hg', ht'⟩ := j_member_of h2 h3 h4 hg ht h6
    obtain ⟨w, a, b, ms, ms', rfl, hw, ha, hb, hv⟩ := ih'
    refine ⟨_, _, _, _, _, ?_, h1, hg', derives_star_cons (.cons (.lit c!",") (.cons (j_ws.2 ⟨hw, rfl⟩) (derives_one ha))) hb, ?_⟩
    · simp
    · rw [← hv]; simp [membersIn, membersIn_append, ht', memberOf]

/-! ### Everything -/

theorem j_main_sound {s t} (h : Gen JG (.ruleName c!"main") s [t]) : ∃ v, jsonOf t = some v ∧ JsonText v s := by
  rw [derives_call jg_main] at h
  obtain ⟨ms, h, hq⟩ := h
  cases hq
  rw [derives_cons] at h
  obtain ⟨w, r, _, _, hw, h, rfl, rfl⟩ := h
  rw [derives_cons] at h
  obtain ⟨x, r, _, _, hx, h, rfl, rfl⟩ := h
  obtain ⟨rfl, rfl⟩ := derives_nil.1 h
  rw [j_ws] at hw
  obtain ⟨hw, rfl⟩ := hw
  obtain ⟨t, v, x, w', rfl, rfl, hw', hv, ht⟩ := j_value_sound _ _ _ (Nat.lt_succ_self _) hx
  exact ⟨v, by simp [jsonOf, valuesIn, ht], w, x, w', by simp, hw, hv, hw'⟩

theorem j_main_complete {s v} (h : JsonText v s) : ∃ t, Gen JG (.ruleName c!"main") s [t] ∧ jsonOf t = some v := by
  obtain ⟨w, x, w', rfl, hw, hv, hw'⟩ := h
  obtain ⟨t, hg, ht⟩ := j_built hv
  obtain ⟨t', hg', ht'⟩ := j_value_of hg ht hw'
  exact ⟨_, .call jg_main (.cons (j_ws.2 ⟨hw, rfl⟩) (derives_one hg')), by simp [jsonOf, valuesIn, ht']⟩

end DP
