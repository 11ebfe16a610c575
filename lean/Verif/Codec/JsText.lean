import Verif.Codec.Utf
import Verif.Codec.JsTgt
import Verif.Codec.KtDec

/-
The string functions of the JavaScript targets compute UTF-8: on the UTF-16 code units of a text they count
and write its UTF-8 bytes, and on the UTF-8 bytes of a text (ended by a zero) they read its code units.
-/
set_option linter.unusedSimpArgs false
namespace Bubbler

theorem utf8Char1 {c : Char} (h : c.toNat < 0x80) : utf8Char c = [BitVec.ofNat 8 c.toNat] := by
  unfold utf8Char String.utf8EncodeChar
  simp only
  rw [if_pos (show c.val.toNat ≤ 127 from by have : c.val.toNat = c.toNat := rfl; omega)]
  rfl

theorem utf8Char2 {c : Char} (h1 : ¬ c.toNat < 0x80) (h2 : c.toNat < 0x800) :
    utf8Char c = [BitVec.ofNat 8 (c.toNat / 64 % 32 + 0xC0), BitVec.ofNat 8 (c.toNat % 64 + 0x80)] := by
  unfold utf8Char String.utf8EncodeChar
  simp only
  have e : c.val.toNat = c.toNat := rfl
  rw [if_neg (by omega), if_pos (by omega)]
  rfl

theorem utf8Char3 {c : Char} (h1 : ¬ c.toNat < 0x800) (h2 : c.toNat < 0x10000) :
    utf8Char c = [BitVec.ofNat 8 (c.toNat / 4096 % 16 + 0xE0), BitVec.ofNat 8 (c.toNat / 64 % 64 + 0x80), BitVec.ofNat 8 (c.toNat % 64 + 0x80)] := by
  unfold utf8Char String.utf8EncodeChar
  simp only
  have e : c.val.toNat = c.toNat := rfl
  rw [if_neg (by omega), if_neg (by omega), if_pos (by omega)]
  rfl

theorem utf8Char4 {c : Char} (h1 : ¬ c.toNat < 0x10000) :
    utf8Char c = [BitVec.ofNat 8 (c.toNat / 262144 % 8 + 0xF0), BitVec.ofNat 8 (c.toNat / 4096 % 64 + 0x80),
      BitVec.ofNat 8 (c.toNat / 64 % 64 + 0x80), BitVec.ofNat 8 (c.toNat % 64 + 0x80)] := by
  unfold utf8Char String.utf8EncodeChar
  simp only
  have e : c.val.toNat = c.toNat := rfl
  rw [if_neg (by omega), if_neg (by omega), if_neg (by omega)]
  rfl

theorem or_add {a b k : Nat} (h : b < 2 ^ k) : (a * 2 ^ k) ||| b = a * 2 ^ k + b := by
  rw [Nat.mul_comm, Nat.two_pow_add_eq_or_of_lt h a]

theorem orx80 {b : Nat} (h : b < 64) : 0x80 ||| b = b + 0x80 := by
  exact (@or_add 2 b 6 h).trans (Nat.add_comm _ _)
theorem orxC0 {b : Nat} (h : b < 32) : 0xC0 ||| b = b + 0xC0 := by
  exact (@or_add 6 b 5 h).trans (Nat.add_comm _ _)
theorem orxE0 {b : Nat} (h : b < 16) : 0xE0 ||| b = b + 0xE0 := by
  exact (@or_add 14 b 4 h).trans (Nat.add_comm _ _)
theorem orxF0 {b : Nat} (h : b < 8) : 0xF0 ||| b = b + 0xF0 := by
  exact (@or_add 30 b 3 h).trans (Nat.add_comm _ _)

theorem and3F (a : Nat) : a &&& 0x3F = a % 64 := Nat.and_two_pow_sub_one_eq_mod a 6
theorem and3FF (a : Nat) : a &&& 0x3FF = a % 1024 := Nat.and_two_pow_sub_one_eq_mod a 10
theorem and1F (a : Nat) : a &&& 0x1F = a % 32 := Nat.and_two_pow_sub_one_eq_mod a 5
theorem and0F (a : Nat) : a &&& 0xF = a % 16 := Nat.and_two_pow_sub_one_eq_mod a 4
theorem and07 (a : Nat) : a &&& 0x7 = a % 8 := Nat.and_two_pow_sub_one_eq_mod a 3

/-! ### Encoding -/

theorem jsUtf8Unit2_eq {v : Nat} (h : v < 0x800) :
    jsUtf8Unit2 v = [BitVec.ofNat 8 (v / 64 % 32 + 0xC0), BitVec.ofNat 8 (v % 64 + 0x80)] := by
  simp only [jsUtf8Unit2, Nat.shiftRight_eq_div_pow, and3F]
  rw [orxC0 (by omega), orx80 (by omega)]
  congr 3
  omega

theorem jsUtf8Unit3_eq {v : Nat} (h : v < 0x10000) :
    jsUtf8Unit3 v = [BitVec.ofNat 8 (v / 4096 % 16 + 0xE0), BitVec.ofNat 8 (v / 64 % 64 + 0x80), BitVec.ofNat 8 (v % 64 + 0x80)] := by
  simp only [jsUtf8Unit3, Nat.shiftRight_eq_div_pow, and3F]
  rw [orxE0 (by omega), orx80 (by omega), orx80 (by omega)]
  congr 3
  omega

theorem jsUtf8Unit4_eq {v : Nat} (h : v < 0x110000) :
    jsUtf8Unit4 v = [BitVec.ofNat 8 (v / 262144 % 8 + 0xF0), BitVec.ofNat 8 (v / 4096 % 64 + 0x80),
      BitVec.ofNat 8 (v / 64 % 64 + 0x80), BitVec.ofNat 8 (v % 64 + 0x80)] := by
  simp only [jsUtf8Unit4, Nat.shiftRight_eq_div_pow, and3F]
  rw [orxF0 (by omega), orx80 (by omega), orx80 (by omega), orx80 (by omega)]
  congr 3
  omega

theorem jsPair_eq {c : Char} (h : ¬ c.toNat < 0x10000) :
    jsPair (0xD800 + (c.toNat - 0x10000) / 0x400) (0xDC00 + (c.toNat - 0x10000) % 0x400) = c.toNat := by
  have := Char.toNat_facts c
  simp only [jsPair, and3FF, Nat.shiftLeft_eq]
  rw [or_add (by omega)]
  omega

/-- One character is written as its UTF-8 bytes. -/
theorem jsUtf8Put_char (c : Char) (us : List (BitVec 16)) (d : Buf) (pos : Nat) :
    jsUtf8Put (utf16Char c ++ us) d pos =
      ((jsUtf8Put us (jsPutAll d pos (utf8Char c)) (pos + (utf8Char c).length)).1,
        (utf8Char c).length + (jsUtf8Put us (jsPutAll d pos (utf8Char c)) (pos + (utf8Char c).length)).2) := by
  have hc := Char.toNat_facts c
  by_cases h : c.toNat < 0x10000
  · have e : (BitVec.ofNat 16 c.toNat).toNat = c.toNat := by rw [BitVec.toNat_ofNat]; omega
    rw [utf16Char_bmp h]
    simp only [List.cons_append, List.nil_append]
    rw [jsUtf8Put.eq_def]
    simp only [e]
    by_cases h1 : c.toNat < 0x80
    · rw [if_pos h1, utf8Char1 h1]; rfl
    · by_cases h2 : c.toNat < 0x800
      · rw [if_neg h1, if_pos h2, utf8Char2 h1 h2, jsUtf8Unit2_eq h2]; rfl
      · rw [if_neg h1, if_neg h2, if_pos (by omega), utf8Char3 h2 h, jsUtf8Unit3_eq h]; rfl
  · have e1 : (BitVec.ofNat 16 (0xD800 + (c.toNat - 0x10000) / 0x400)).toNat = 0xD800 + (c.toNat - 0x10000) / 0x400 := by
      rw [BitVec.toNat_ofNat]; omega
    have e2 : (BitVec.ofNat 16 (0xDC00 + (c.toNat - 0x10000) % 0x400)).toNat = 0xDC00 + (c.toNat - 0x10000) % 0x400 := by
      rw [BitVec.toNat_ofNat]; omega
    rw [utf16Char_pair h]
    simp only [List.cons_append, List.nil_append]
    rw [jsUtf8Put.eq_def]
    simp only [e1, e2]
    rw [if_neg (by omega), if_neg (by omega), if_neg (by omega), jsPair_eq h, utf8Char4 h, jsUtf8Unit4_eq (by omega)]
    rfl

theorem jsUtf8Count_char (c : Char) (us : List (BitVec 16)) :
    jsUtf8Count (utf16Char c ++ us) = (utf8Char c).length + jsUtf8Count us := by
  have hc := Char.toNat_facts c
  by_cases h : c.toNat < 0x10000
  · have e : (BitVec.ofNat 16 c.toNat).toNat = c.toNat := by rw [BitVec.toNat_ofNat]; omega
    rw [utf16Char_bmp h]
    simp only [List.cons_append, List.nil_append]
    rw [jsUtf8Count.eq_def]
    simp only [e]
    by_cases h1 : c.toNat < 0x80
    · rw [if_pos h1, utf8Char1 h1]; rfl
    · by_cases h2 : c.toNat < 0x800
      · rw [if_neg h1, if_pos h2, utf8Char2 h1 h2]; rfl
      · rw [if_neg h1, if_neg h2, if_pos (by omega), utf8Char3 h2 h]; rfl
  · have e1 : (BitVec.ofNat 16 (0xD800 + (c.toNat - 0x10000) / 0x400)).toNat = 0xD800 + (c.toNat - 0x10000) / 0x400 := by
      rw [BitVec.toNat_ofNat]; omega
    rw [utf16Char_pair h]
    simp only [List.cons_append, List.nil_append]
    rw [jsUtf8Count.eq_def]
    simp only [e1]
    rw [if_neg (by omega), if_neg (by omega), if_neg (by omega), utf8Char4 h]
    rfl

/-- `stringToUTF8BytesCount`. -/
theorem jsUtf8Count_eq : ∀ cs : List Char, jsUtf8Count (utf16 cs) = (utf8 cs).length
  | [] => rfl
  | c :: cs => by
    have := jsUtf8Count_eq cs
    rw [utf16, List.flatMap_cons, jsUtf8Count_char, utf8, List.flatMap_cons, List.length_append]
    rw [utf16, utf8] at this
    rw [this]

theorem jsPutAll_append : ∀ (a b : List Byte) (d : Buf) (pos : Nat),
    jsPutAll d pos (a ++ b) = jsPutAll (jsPutAll d pos a) (pos + a.length) b
  | [], b, d, pos => rfl
  | x :: a, b, d, pos => by
    simp only [List.cons_append, jsPutAll, List.length_cons]
    rw [jsPutAll_append a b]
    congr 1
    omega

/-- `stringToUTF8Bytes`. -/
theorem jsUtf8Put_eq : ∀ (cs : List Char) (d : Buf) (pos : Nat),
    jsUtf8Put (utf16 cs) d pos = (jsPutAll d pos (utf8 cs), (utf8 cs).length)
  | [], d, pos => rfl
  | c :: cs, d, pos => by
    have h := jsUtf8Put_eq cs (jsPutAll d pos (utf8Char c)) (pos + (utf8Char c).length)
    have e1 : utf16 (c :: cs) = utf16Char c ++ utf16 cs := rfl
    have e2 : utf8 (c :: cs) = utf8Char c ++ utf8 cs := rfl
    rw [e1, e2, jsUtf8Put_char, h, jsPutAll_append, List.length_append]

theorem jsPutAll_length : ∀ (bs : List Byte) (d : Buf) (pos : Nat), (jsPutAll d pos bs).length = d.length
  | [], d, pos => rfl
  | b :: bs, d, pos => by
    rw [jsPutAll, jsPutAll_length bs, jsPut, List.length_set]

theorem jsPut_wr {d : Buf} {pos : Nat} (b : Byte) (h : pos < d.length) : d.wr pos b = some (jsPut d pos b) := by
  rw [Buf.wr, if_pos h]; rfl

/-- Writing in bounds. -/
theorem jsPutAll_overlay : ∀ (bs : List Byte) (d : Buf) (pos : Nat), pos + bs.length ≤ d.length →
    Overlay d (jsPutAll d pos bs) (8 * pos) (byteWire bs)
  | [], d, pos, _ => Overlay.nil _ _
  | b :: bs, d, pos, h => by
    simp only [List.length_cons] at h
    obtain ⟨d', w, h1⟩ := Overlay.wr (d := d) (k := pos) (b := b) (by omega)
    rw [jsPut_wr b (by omega)] at w
    cases w
    have h2 := jsPutAll_overlay bs (jsPut d pos b) (pos + 1) (by rw [jsPut, List.length_set]; omega)
    have e : byteWire (b :: bs) = byteWire [b] ++ byteWire bs := byteWire_append [b] bs
    simp only [jsPutAll]
    rw [e]
    refine h1.append ?_
    rw [byteWire_length]
    exact h2

/-! ### Decoding -/

theorem jsGet_of_take {d : Buf} {pos : Nat} {bs : List Byte} (h : (d.drop pos).take bs.length = bs) (i : Nat) (hi : i < bs.length) :
    jsGet d (pos + i) = bs[i] := by
  have : ((d.drop pos).take bs.length)[i]? = some bs[i] := by rw [h]; exact List.getElem?_eq_getElem hi
  rw [List.getElem?_take, if_pos hi, List.getElem?_drop] at this
  rw [jsGet, List.getD_eq_getElem?_getD, this]
  rfl

theorem take_append_left {d : Buf} {pos : Nat} {a b : List Byte} (h : (d.drop pos).take (a ++ b).length = a ++ b) :
    (d.drop pos).take a.length = a ∧ (d.drop (pos + a.length)).take b.length = b := by
  rw [List.length_append, List.take_add] at h
  have hl : ((d.drop pos).take a.length).length = a.length := by
    have := congrArg List.length h
    simp only [List.length_append, List.length_take, List.length_drop] at this ⊢
    omega
  obtain ⟨h1, h2⟩ := List.append_inj h hl
  rw [List.drop_drop] at h2
  exact ⟨h1, h2⟩

theorem byteNat {n : Nat} (h : n < 256) : (BitVec.ofNat 8 n).toNat = n := by
  rw [BitVec.toNat_ofNat]; omega

/-- One character is read from its UTF-8 bytes. -/
theorem jsFromUtf8_char (c : Char) (hnul : c.toNat ≠ 0) (d : Buf) (pos : Nat) (hpos : pos < d.length)
    (h : (d.drop pos).take (utf8Char c).length = utf8Char c) :
    jsFromUtf8 d pos = (utf16Char c ++ (jsFromUtf8 d (pos + (utf8Char c).length)).1, (jsFromUtf8 d (pos + (utf8Char c).length)).2) := by
  have hc := Char.toNat_facts c
  have hg := jsGet_of_take h
  rw [jsFromUtf8, dif_pos hpos]
  simp only
  by_cases h1 : c.toNat < 0x80
  · rw [utf8Char1 h1] at hg ⊢
    have g0 := hg 0 (by simp)
    simp only [Nat.add_zero, List.getElem_cons_zero] at g0
    rw [g0, byteNat (by omega), if_neg hnul, if_pos h1, utf16Char_bmp (by omega)]
    rfl
  · by_cases h2 : c.toNat < 0x800
    · rw [utf8Char2 h1 h2] at hg ⊢
      have g0 := hg 0 (by simp)
      have g1 := hg 1 (by simp)
      simp only [Nat.add_zero, List.getElem_cons_zero, List.getElem_cons_succ] at g0 g1
      rw [g0, byteNat (by omega), if_neg (by omega), if_neg (by omega), if_pos (by omega), jsCont, g1, byteNat (by omega),
        and3F, and1F, Nat.shiftLeft_eq, or_add (by omega), utf16Char_bmp (by omega)]
      have e : (c.toNat / 64 % 32 + 192) % 32 * 2 ^ 6 + (c.toNat % 64 + 128) % 64 = c.toNat := by omega
      rw [e]
      rfl
    · by_cases h3 : c.toNat < 0x10000
      · rw [utf8Char3 h2 h3] at hg ⊢
        have g0 := hg 0 (by simp)
        have g1 := hg 1 (by simp)
        have g2 := hg 2 (by simp)
        simp only [Nat.add_zero, List.getElem_cons_zero, List.getElem_cons_succ] at g0 g1 g2
        rw [g0, byteNat (by omega), if_neg (by omega), if_neg (by omega), if_neg (by omega), if_pos (by omega), jsCont, jsCont, g1, g2,
          byteNat (by omega), byteNat (by omega), and3F, and3F, and0F, Nat.shiftLeft_eq, Nat.shiftLeft_eq, Nat.or_assoc,
          or_add (a := (c.toNat / 64 % 64 + 0x80) % 64) (by omega), or_add (by omega), utf16Char_bmp (by omega)]
        have e : (c.toNat / 4096 % 16 + 224) % 16 * 2 ^ 12 + ((c.toNat / 64 % 64 + 128) % 64 * 2 ^ 6 + (c.toNat % 64 + 128) % 64) = c.toNat := by
          omega
        rw [e]
        rfl
      · rw [utf8Char4 h3] at hg ⊢
        have g0 := hg 0 (by simp)
        have g1 := hg 1 (by simp)
        have g2 := hg 2 (by simp)
        have g3 := hg 3 (by simp)
        simp only [Nat.add_zero, List.getElem_cons_zero, List.getElem_cons_succ] at g0 g1 g2 g3
        rw [g0, byteNat (by omega), if_neg (by omega), if_neg (by omega), if_neg (by omega), if_neg (by omega), jsCont, jsCont, jsCont, g1, g2, g3,
          byteNat (by omega), byteNat (by omega), byteNat (by omega), and3F, and3F, and3F, and07, Nat.shiftLeft_eq, Nat.shiftLeft_eq,
          Nat.shiftLeft_eq, Nat.or_assoc, Nat.or_assoc,
          or_add (a := (c.toNat / 64 % 64 + 0x80) % 64) (by omega), or_add (a := (c.toNat / 4096 % 64 + 0x80) % 64) (by omega),
          or_add (by omega), utf16Char_pair h3]
        have e : (c.toNat / 262144 % 8 + 240) % 8 * 2 ^ 18 + ((c.toNat / 4096 % 64 + 128) % 64 * 2 ^ 12 +
            ((c.toNat / 64 % 64 + 128) % 64 * 2 ^ 6 + (c.toNat % 64 + 128) % 64)) = c.toNat := by omega
        rw [e, if_neg h3, and3FF, Nat.shiftRight_eq_div_pow]
        rfl

theorem utf8Char_pos (c : Char) : 0 < (utf8Char c).length := by
  rw [utf8Char, List.length_map, String.length_utf8EncodeChar]
  exact Char.utf8Size_pos c

/-- `stringFromUTF8Bytes` on the UTF-8 of a text without NUL, ended by a zero. -/
theorem jsFromUtf8_eq (d : Buf) : ∀ (cs : List Char) (pos : Nat), (∀ c ∈ cs, c.toNat ≠ 0) →
    pos + (utf8 cs).length < d.length → (d.drop pos).take (utf8 cs).length = utf8 cs →
    jsGet d (pos + (utf8 cs).length) = 0#8 → jsFromUtf8 d pos = (utf16 cs, pos + (utf8 cs).length)
  | [], pos, _, h1, _, h3 => by
    simp only [utf8, List.flatMap_nil, List.length_nil, Nat.add_zero] at h1 h3
    rw [jsFromUtf8, dif_pos h1]
    simp only [h3]
    rfl
  | c :: cs, pos, h0, h1, h2, h3 => by
    have e1 : utf16 (c :: cs) = utf16Char c ++ utf16 cs := rfl
    have e2 : utf8 (c :: cs) = utf8Char c ++ utf8 cs := rfl
    rw [e2] at h1 h2 h3 ⊢
    obtain ⟨a1, a2⟩ := take_append_left h2
    simp only [List.length_append] at h1 h3 ⊢
    have e3 : pos + ((utf8Char c).length + (utf8 cs).length) = pos + (utf8Char c).length + (utf8 cs).length := by omega
    rw [e3] at h1 h3 ⊢
    have ih := jsFromUtf8_eq d cs (pos + (utf8Char c).length) (fun x hx => h0 x (List.mem_cons_of_mem _ hx)) h1 a2 h3
    rw [jsFromUtf8_char c (h0 c List.mem_cons_self) d pos (by have := utf8Char_pos c; omega) a1, ih, e1]

/-- UTF-8 of a text contains a zero byte just for NUL. -/
theorem utf8_nul : ∀ cs : List Char, 0#8 ∈ utf8 cs ↔ ∃ c ∈ cs, c.toNat = 0
  | [] => by simp [utf8]
  | c :: cs => by
    have ih := utf8_nul cs
    have e2 : utf8 (c :: cs) = utf8Char c ++ utf8 cs := rfl
    rw [e2, List.mem_append, ih]
    have key : 0#8 ∈ utf8Char c ↔ c.toNat = 0 := by
      have hc := Char.toNat_facts c
      have hz : ∀ n, n < 256 → ((0#8 = BitVec.ofNat 8 n) ↔ n = 0) := by
        intro n hn
        constructor
        · intro h; have := congrArg BitVec.toNat h; rw [byteNat hn] at this; simpa using this.symm
        · rintro rfl; rfl
      by_cases h1 : c.toNat < 0x80
      · rw [utf8Char1 h1]; simp only [List.mem_singleton]; exact hz _ (by omega)
      · by_cases h2 : c.toNat < 0x800
        · rw [utf8Char2 h1 h2]; simp only [List.mem_cons, List.not_mem_nil, or_false]
          rw [hz _ (by omega), hz _ (by omega)]; omega
        · by_cases h3 : c.toNat < 0x10000
          · rw [utf8Char3 h2 h3]; simp only [List.mem_cons, List.not_mem_nil, or_false]
            rw [hz _ (by omega), hz _ (by omega), hz _ (by omega)]; omega
          · rw [utf8Char4 h3]; simp only [List.mem_cons, List.not_mem_nil, or_false]
            rw [hz _ (by omega), hz _ (by omega), hz _ (by omega), hz _ (by omega)]; omega
    rw [key]
    simp only [List.mem_cons, exists_eq_or_imp]

end Bubbler
