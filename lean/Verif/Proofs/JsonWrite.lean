/-
Every value has a text (`writeJson` of Spec/Json.lean), and the texts are ASCII.
-/
import Verif.Spec.Json
import Verif.Spec.Text

namespace DP
open Spec

theorem jHex_char : ∀ k, k < 16 → jHex (jHexChar k) = some k := by decide +kernel

theorem jChar_write {n : Nat} (h : n < 65536) : JChar n (writeUnit n) := by
  unfold writeUnit
  split
  · rename_i hc
    have ht : (Char.ofNat n).toNat = n := by
      have hv : n.isValidChar := .inl (by omega)
      simp [Char.ofNat, hv, Char.toNat, Char.ofNatAux]
    have h1 : Char.ofNat n ≠ '"' := fun hq => hc.2.2.1 (by rw [← ht, hq]; rfl)
    have h2 : Char.ofNat n ≠ '\\' := fun hq => hc.2.2.2 (by rw [← ht, hq]; rfl)
    have := JChar.plain (c := Char.ofNat n) (by omega) (by omega) h1 h2
    rwa [ht] at this
  · have := JChar.hex (jHex_char (n / 4096 % 16) (by omega)) (jHex_char (n / 256 % 16) (by omega)) (jHex_char (n / 16 % 16) (by omega)) (jHex_char (n % 16) (by omega))
    have he : ((n / 4096 % 16 * 16 + n / 256 % 16) * 16 + n / 16 % 16) * 16 + n % 16 = n := by omega
    rwa [he] at this

theorem strText_write {us : List Nat} (h : ∀ n ∈ us, n < 65536) : StrText us (writeString us) := by
  refine ⟨us.flatMap writeUnit, rfl, ?_⟩
  induction us with
  | nil => exact .nil
  | cons n us ih => exact .cons (jChar_write (h n (by simp))) (ih fun m hm => h m (by simp [hm]))

theorem jBlank_nil : JBlank [] := by intro c hc; cases hc

mutual
theorem jText_write : ∀ v : Json, v.Proper → JText (.value v) (writeJson v)
  | .null, _ => by rw [writeJson]; exact .null
  | .bool true, _ => by rw [writeJson]; exact .true
  | .bool false, _ => by rw [writeJson]; exact .false
  | .num u, h => by rw [writeJson]; exact .num h
  | .str us, h => by rw [writeJson]; exact .str (strText_write h)
  | .arr [], _ => by rw [writeJson, writeItems]; exact .arr_nil jBlank_nil
  | .arr (v :: vs), h => by
    rw [Json.Proper, properAll] at h
    rw [writeJson, writeItems]
    exact .arr (jText_items v vs h.1 h.2)
  | .obj [], _ => by rw [writeJson, writeMembers]; exact .obj_nil jBlank_nil
  | .obj (m :: ms), h => by
    rw [Json.Proper, properMembers] at h
    rw [writeJson, writeMembers]
    exact .obj (jText_members m ms h.1 h.2)
termination_by v => sizeOf v
theorem jText_items : ∀ (v : Json) (vs : List Json), v.Proper → properAll vs → JText (.items (v :: vs)) (writeJson v ++ writeMoreItems vs)
  | v, [], h, _ => by
    rw [writeMoreItems]
    exact .item jBlank_nil (jText_write v h) jBlank_nil
  | v, v' :: vs, h, h' => by
    rw [properAll] at h'
    rw [writeMoreItems]
    exact .items jBlank_nil (jText_write v h) jBlank_nil (jText_items v' vs h'.1 h'.2)
termination_by v vs => sizeOf v + sizeOf vs
theorem jText_members : ∀ (m : List Nat × Json) (ms : List (List Nat × Json)), properMember m → properMembers ms →
    JText (.members (m :: ms)) (writeMember m ++ writeMoreMembers ms)
  | (k, v), [], h, _ => by
    rw [writeMoreMembers, writeMember]
    rw [properMember] at h
    have := JText.member jBlank_nil (strText_write h.1) jBlank_nil jBlank_nil (jText_write v h.2) jBlank_nil
    simpa using this
  | (k, v), m' :: ms, h, h' => by
    rw [properMember] at h
    rw [properMembers] at h'
    rw [writeMoreMembers, writeMember]
    have := JText.members jBlank_nil (strText_write h.1) jBlank_nil jBlank_nil (jText_write v h.2) jBlank_nil (jText_members m' ms h'.1 h'.2)
    simpa using this
termination_by m ms => sizeOf m + sizeOf ms
end

theorem jsonText_write {v : Json} (h : v.Proper) : JsonText v (writeJson v) :=
  ⟨[], writeJson v, [], by simp, jBlank_nil, jText_write v h, jBlank_nil⟩

/-! ### ASCII -/

theorem jAscii_nil : Ascii [] := by intro c hc; cases hc
theorem jAscii_cons {c : Char} {s : Str} (hc : c.toNat < 128) (h : Ascii s) : Ascii (c :: s) := by
  intro d hd
  rcases List.mem_cons.1 hd with rfl | hd
  · exact hc
  · exact h d hd
theorem jAscii_append {s s' : Str} (h : Ascii s) (h' : Ascii s') : Ascii (s ++ s') := by
  intro d hd
  rcases List.mem_append.1 hd with hd | hd
  · exact h d hd
  · exact h' d hd

theorem jBlank_ascii {w} (h : JBlank w) : Ascii w := by
  intro c hc
  rcases h c hc with rfl | rfl | rfl | rfl <;> decide

theorem toNat_of_le {a b : Char} (h : a ≤ b) : a.toNat ≤ b.toNat := h

theorem jDigits_ascii {u} (h : JDigits u) : Ascii u := by
  intro c hc
  have := toNat_of_le (h c hc).2
  have e : '9'.toNat = 57 := rfl
  omega

theorem isNumber_ascii {u} (h : IsNumber u) : Ascii u := by
  obtain ⟨m, i, f, x, rfl, hm, hi, hf, hx⟩ := h
  refine jAscii_append (jAscii_append (jAscii_append ?_ ?_) ?_) ?_
  · rcases hm with rfl | rfl
    · exact jAscii_nil
    · exact jAscii_cons (by decide) jAscii_nil
  · rcases hi with rfl | ⟨d, ds, rfl, -, hd, hds⟩
    · exact jAscii_cons (by decide) jAscii_nil
    · have := toNat_of_le hd
      have e : '9'.toNat = 57 := rfl
      exact jAscii_cons (by omega) (jDigits_ascii hds)
  · rcases hf with rfl | ⟨ds, rfl, -, hds⟩
    · exact jAscii_nil
    · exact jAscii_cons (by decide) (jDigits_ascii hds)
  · rcases hx with rfl | ⟨e, sg, ds, rfl, he, hs, -, hds⟩
    · exact jAscii_nil
    · refine jAscii_cons ?_ (jAscii_append ?_ (jDigits_ascii hds))
      · rcases he with rfl | rfl <;> decide
      · rcases hs with rfl | rfl | rfl
        · exact jAscii_nil
        · exact jAscii_cons (by decide) jAscii_nil
        · exact jAscii_cons (by decide) jAscii_nil

theorem jHex_ascii {c x} (h : jHex c = some x) : c.toNat < 128 := by
  unfold jHex at h
  have e1 : '9'.toNat = 57 := rfl
  have e2 : 'F'.toNat = 70 := rfl
  have e3 : 'f'.toNat = 102 := rfl
  split at h
  · rename_i hc
    have := toNat_of_le hc.2
    omega
  · split at h
    · rename_i hc
      have := toNat_of_le hc.2
      omega
    · split at h
      · rename_i hc
        have := toNat_of_le hc.2
        omega
      · cases h

theorem jChar_ascii {n u} (h : JChar n u) : Ascii u := by
  cases h with
  | plain _ h => exact jAscii_cons h jAscii_nil
  | short h =>
    refine jAscii_cons (by decide) (jAscii_cons ?_ jAscii_nil)
    simp only [shortEscapes, List.mem_cons, Prod.mk.injEq, List.not_mem_nil, or_false] at h
    rcases h with h | h | h | h | h | h | h | h <;> rw [h.1] <;> decide
  | hex ha hb hc hd =>
    exact jAscii_cons (by decide) (jAscii_cons (by decide) (jAscii_cons (jHex_ascii ha) (jAscii_cons (jHex_ascii hb) (jAscii_cons (jHex_ascii hc) (jAscii_cons (jHex_ascii hd) jAscii_nil)))))

theorem strText_ascii {us u} (h : StrText us u) : Ascii u := by
  obtain ⟨v, rfl, h⟩ := h
  refine jAscii_cons (by decide) (jAscii_append ?_ (jAscii_cons (by decide) jAscii_nil))
  induction h with
  | nil => exact jAscii_nil
  | cons h _ ih => exact jAscii_append (jChar_ascii h) ih

theorem jText_ascii {p u} (h : JText p u) : Ascii u := by
  induction h with
  | null => unfold Ascii; decide
  | true => unfold Ascii; decide
  | false => unfold Ascii; decide
  | num h => exact isNumber_ascii h
  | str h => exact strText_ascii h
  | arr_nil h => exact jAscii_cons (by decide) (jAscii_append (jBlank_ascii h) (jAscii_cons (by decide) jAscii_nil))
  | arr _ ih => exact jAscii_cons (by decide) (jAscii_append ih (jAscii_cons (by decide) jAscii_nil))
  | obj_nil h => exact jAscii_cons (by decide) (jAscii_append (jBlank_ascii h) (jAscii_cons (by decide) jAscii_nil))
  | obj _ ih => exact jAscii_cons (by decide) (jAscii_append ih (jAscii_cons (by decide) jAscii_nil))
  | item h1 _ h3 ih => exact jAscii_append (jBlank_ascii h1) (jAscii_append ih (jBlank_ascii h3))
  | items h1 _ h3 _ ih ih' => exact jAscii_append (jBlank_ascii h1) (jAscii_append ih (jAscii_append (jBlank_ascii h3) (jAscii_cons (by decide) ih')))
  | member h1 h2 h3 h4 _ h6 ih =>
    exact jAscii_append (jBlank_ascii h1) (jAscii_append (strText_ascii h2) (jAscii_append (jBlank_ascii h3) (jAscii_cons (by decide)
      (jAscii_append (jBlank_ascii h4) (jAscii_append ih (jBlank_ascii h6))))))
  | members h1 h2 h3 h4 _ h6 _ ih ih' =>
    exact jAscii_append (jBlank_ascii h1) (jAscii_append (strText_ascii h2) (jAscii_append (jBlank_ascii h3) (jAscii_cons (by decide)
      (jAscii_append (jBlank_ascii h4) (jAscii_append ih (jAscii_append (jBlank_ascii h6) (jAscii_cons (by decide) ih')))))))

theorem jsonText_ascii {v s} (h : JsonText v s) : Ascii s := by
  obtain ⟨w, u, w', rfl, hw, hv, hw'⟩ := h
  exact jAscii_append (jBlank_ascii hw) (jAscii_append (jText_ascii hv) (jBlank_ascii hw'))

end DP
