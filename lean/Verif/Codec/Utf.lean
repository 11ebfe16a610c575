import Verif.Codec.Bits

/-
Text and its standard encodings, used to state what the targets with a string type of their own do: a text is
a list of Unicode scalar values (`Char`).  UTF-8 is the one of Lean's library (`String.utf8EncodeChar`).
-/
namespace Bubbler

/-- UTF-8. -/
def utf8Char (c : Char) : List Byte := (String.utf8EncodeChar c).map UInt8.toBitVec
def utf8 (cs : List Char) : List Byte := cs.flatMap utf8Char

/-- UTF-16: one code unit below U+10000, a surrogate pair above. -/
def utf16Char (c : Char) : List (BitVec 16) :=
  if c.toNat < 0x10000 then [BitVec.ofNat 16 c.toNat]
  else [BitVec.ofNat 16 (0xD800 + (c.toNat - 0x10000) / 0x400), BitVec.ofNat 16 (0xDC00 + (c.toNat - 0x10000) % 0x400)]
def utf16 (cs : List Char) : List (BitVec 16) := cs.flatMap utf16Char

/-- The scalar value with this number; U+FFFD if there is none. -/
def charOf (n : Nat) : Char := if n.isValidChar then Char.ofNat n else '\uFFFD'

/-- The text a sequence of code units stands for; unpaired surrogates become U+FFFD. -/
def utf16Dec : List (BitVec 16) → List Char
  | [] => []
  | [u] => [charOf u.toNat]
  | u :: v :: r =>
    if 0xD800 ≤ u.toNat ∧ u.toNat < 0xDC00 ∧ 0xDC00 ≤ v.toNat ∧ v.toNat < 0xE000 then
      charOf (0x10000 + (u.toNat - 0xD800) * 0x400 + (v.toNat - 0xDC00)) :: utf16Dec r
    else charOf u.toNat :: utf16Dec (v :: r)

/-- The text a sequence of bytes stands for; nothing if it is not UTF-8. -/
def utf8Dec (bs : List Byte) : List Char :=
  match (ByteArray.mk (bs.map UInt8.ofBitVec).toArray).utf8Decode? with
  | none => []
  | some a => a.toList

theorem charOf_toNat (c : Char) : charOf c.toNat = c := by
  unfold charOf
  rw [if_pos (show c.toNat.isValidChar from c.valid)]
  exact Char.ofNat_toNat c

theorem Char.toNat_facts (c : Char) : c.toNat < 0xD800 ∨ (0xDFFF < c.toNat ∧ c.toNat < 0x110000) := c.valid

theorem utf16Char_bmp {c : Char} (h : c.toNat < 0x10000) : utf16Char c = [BitVec.ofNat 16 c.toNat] := if_pos h

theorem utf16Char_pair {c : Char} (h : ¬ c.toNat < 0x10000) :
    utf16Char c = [BitVec.ofNat 16 (0xD800 + (c.toNat - 0x10000) / 0x400), BitVec.ofNat 16 (0xDC00 + (c.toNat - 0x10000) % 0x400)] :=
  if_neg h

theorem utf16Dec_char (c : Char) (r : List (BitVec 16)) : utf16Dec (utf16Char c ++ r) = c :: utf16Dec r := by
  have hc := Char.toNat_facts c
  by_cases h : c.toNat < 0x10000
  · rw [utf16Char_bmp h]
    have e : (BitVec.ofNat 16 c.toNat).toNat = c.toNat := by rw [BitVec.toNat_ofNat]; omega
    cases r with
    | nil =>
      simp only [List.append_nil, utf16Dec]
      rw [e, charOf_toNat]
    | cons v r =>
      simp only [List.cons_append, List.nil_append, utf16Dec]
      rw [if_neg (by rw [e]; omega), e, charOf_toNat]
  · rw [utf16Char_pair h]
    have e1 : (BitVec.ofNat 16 (0xD800 + (c.toNat - 0x10000) / 0x400)).toNat = 0xD800 + (c.toNat - 0x10000) / 0x400 := by
      rw [BitVec.toNat_ofNat]; omega
    have e2 : (BitVec.ofNat 16 (0xDC00 + (c.toNat - 0x10000) % 0x400)).toNat = 0xDC00 + (c.toNat - 0x10000) % 0x400 := by
      rw [BitVec.toNat_ofNat]; omega
    simp only [List.cons_append, List.nil_append, utf16Dec]
    rw [if_pos (by rw [e1, e2]; omega), e1, e2]
    have e : 0x10000 + (0xD800 + (c.toNat - 0x10000) / 0x400 - 0xD800) * 0x400 + (0xDC00 + (c.toNat - 0x10000) % 0x400 - 0xDC00) = c.toNat := by
      omega
    rw [e, charOf_toNat]

/-- UTF-16 determines the text. -/
theorem utf16Dec_utf16 : ∀ cs : List Char, utf16Dec (utf16 cs) = cs
  | [] => rfl
  | c :: cs => by
    have := utf16Dec_utf16 cs
    rw [utf16, List.flatMap_cons, utf16Dec_char]
    rw [utf16] at this
    rw [this]

/-- UTF-8 determines the text. -/
theorem utf8Dec_utf8 (cs : List Char) : utf8Dec (utf8 cs) = cs := by
  have e : ByteArray.mk ((utf8 cs).map UInt8.ofBitVec).toArray = cs.utf8Encode := by
    have h1 : (utf8 cs).map UInt8.ofBitVec = cs.flatMap String.utf8EncodeChar := by
      unfold utf8
      rw [List.map_flatMap]
      congr 1
      funext c
      simp only [utf8Char, List.map_map]
      conv => rhs; rw [← List.map_id (String.utf8EncodeChar c)]
      congr 1
    rw [h1]
    rw [List.utf8Encode]
    exact congrArg ByteArray.mk (List.data_toByteArray (l := cs.flatMap String.utf8EncodeChar)).symm
  unfold utf8Dec
  rw [e, List.utf8Decode?_utf8Encode]

end Bubbler
