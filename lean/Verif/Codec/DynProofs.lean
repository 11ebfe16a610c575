import Verif.Codec.SpecProofs

set_option linter.unusedSimpArgs false
namespace Bubbler

theorem rd_none {d : Buf} {k : Nat} (h : d.length ≤ k) : d.rd k = none := by
  simp [Buf.rd, h]

theorem rd_some_lt {d : Buf} {k : Nat} {b : Byte} (h : d.rd k = some b) : k < d.length := by
  simp only [Buf.rd] at h
  exact (List.getElem?_eq_some_iff.mp h).1

theorem rd_append {d e : Buf} {k : Nat} (h : k < d.length) : Buf.rd (d ++ e) k = d.rd k := by
  simp [Buf.rd, List.getElem?_append_left h]

/-! ### Encoding -/

theorem encString_spec (s : List Byte) (k : Nat) (d : Buf) (off : Nat)
    (h : off + k + (s.length + 1) ≤ d.length) :
    ∃ d', encString s k d off = some (d', off + (s.length + 1)) ∧
      Overlay d d' (8 * (off + k)) (byteWire (s ++ [0#8])) := by
  obtain ⟨d1, h1, o1⟩ := Overlay.copyAt (d := d) (k := off + k) (s := s) (by omega)
  obtain ⟨d2, h2, o2⟩ := Overlay.wr (d := d1) (k := off + k + s.length) (b := 0#8) (by rw [o1.1]; omega)
  refine ⟨d2, ?_, ?_⟩
  · simp [encString, h1, h2]
  · rw [byteWire_append]
    apply o1.append
    rw [byteWire_length]
    have : 8 * (off + k) + 8 * s.length = 8 * (off + k + s.length) := by omega
    rwa [this]

theorem and7F (n : Nat) : n &&& 0x7F = n % 128 := Nat.and_two_pow_sub_one_eq_mod n 7

theorem or80 : ∀ a, a < 128 → a ||| 0x80 = a + 128 := by decide +kernel

theorem clear80 : ∀ a, a < 128 → (BitVec.ofNat 8 (a + 128) &&& ~~~(0x80#8)) = BitVec.ofNat 8 a := by
  decide +kernel

theorem varint_ne_nil (n : Nat) : 0 < (varint n).length := by
  rw [varint]; split <;> simp

theorem varint_length (n : Nat) : (varint n).length = 1 + lenExtra n := by
  induction n using varint.induct with
  | case1 n h =>
    rw [varint, if_pos h, lenExtra, dif_pos (by rw [Nat.shiftRight_eq_div_pow]; omega)]; simp
  | case2 n h ih =>
    rw [varint, if_neg h, lenExtra, dif_neg (by rw [Nat.shiftRight_eq_div_pow]; omega)]
    rw [Nat.shiftRight_eq_div_pow]
    simp only [List.length_cons, ih]
    have : (2 : Nat) ^ 7 = 128 := rfl
    rw [this]; omega

theorem encLen_spec (k n : Nat) : ∀ (d : Buf) (off : Nat), off + k + (varint n).length ≤ d.length →
    ∃ d1 b d2, encLenLoop k n d off = some (d1, off + (varint n).length) ∧
      d1.rd (off + (varint n).length - 1 + k) = some b ∧
      d1.wr (off + (varint n).length - 1 + k) (b &&& ~~~(0x80#8)) = some d2 ∧
      Overlay d d2 (8 * (off + k)) (byteWire (varint n)) := by
  induction n using varint.induct with
  | case1 n hn =>
    intro d off h
    have e : varint n = [BitVec.ofNat 8 n] := by rw [varint, if_pos hn]
    rw [e] at h ⊢
    have hk : off + k < d.length := by simp at h; omega
    have hm : n &&& 0x7F ||| 0x80 = n + 128 := by
      rw [and7F, or80 _ (by omega)]; omega
    have e2 : n >>> 7 = 0 := by rw [Nat.shiftRight_eq_div_pow]; omega
    have e3 : off + [BitVec.ofNat 8 n].length - 1 + k = off + k := by simp
    refine ⟨d.set (off + k) (BitVec.ofNat 8 (n + 128)), BitVec.ofNat 8 (n + 128),
      d.set (off + k) (BitVec.ofNat 8 n), ?_, ?_, ?_, ?_⟩
    · rw [encLenLoop, hm]
      simp [Buf.wr, hk, e2]
    · rw [e3]; simp [Buf.rd, hk]
    · rw [e3, clear80 n hn]; simp [Buf.wr, hk]
    · obtain ⟨d', h1, h2⟩ := Overlay.wr (d := d) (k := off + k) (b := BitVec.ofNat 8 n) hk
      simp only [Buf.wr, hk, if_true, Option.some.injEq] at h1
      rwa [← h1] at h2
  | case2 n hn ih =>
    intro d off h
    have e : varint n = BitVec.ofNat 8 (n % 128 + 128) :: varint (n / 128) := by
      rw [varint, if_neg hn]
    rw [e] at h ⊢
    simp only [List.length_cons] at h ⊢
    have hk : off + k < d.length := by omega
    have hm : n &&& 0x7F ||| 0x80 = n % 128 + 128 := by
      rw [and7F, or80 _ (by omega)]
    have e2 : n >>> 7 = n / 128 := by rw [Nat.shiftRight_eq_div_pow]
    obtain ⟨d0, h0, o0⟩ := Overlay.wr (d := d) (k := off + k) (b := BitVec.ofNat 8 (n % 128 + 128)) hk
    obtain ⟨d1, b, d2, h1, h2, h3, h4⟩ := ih d0 (off + 1) (by rw [o0.1]; omega)
    have e4 : off + 1 + (varint (n / 128)).length = off + ((varint (n / 128)).length + 1) := by omega
    rw [e4] at h1 h2 h3
    refine ⟨d1, b, d2, ?_, h2, h3, ?_⟩
    · rw [encLenLoop, hm, h0]
      have : ¬ n / 128 = 0 := by omega
      simp only [e2, Option.bind_eq_bind, Option.bind_some, this, dif_neg, not_false_eq_true]
      exact h1
    · have := o0.append (d2 := d2) (b := byteWire (varint (n / 128))) (by
        have e5 : 8 * (off + k) + (byteWire [BitVec.ofNat 8 (n % 128 + 128)]).length = 8 * (off + 1 + k) := by
          simp; omega
        rw [e5]; exact h4)
      rw [← byteWire_append] at this
      simpa using this

theorem encBytes_spec (s : List Byte) (k : Nat) (d : Buf) (off : Nat)
    (h : off + k + ((varint s.length).length + s.length) ≤ d.length) :
    ∃ d', encBytes s k d off = some (d', off + ((varint s.length).length + s.length)) ∧
      Overlay d d' (8 * (off + k)) (byteWire (varint s.length ++ s)) := by
  obtain ⟨d1, b, d2, h1, h2, h3, o2⟩ := encLen_spec k s.length d off (by omega)
  obtain ⟨d3, h4, o3⟩ := Overlay.copyAt (d := d2) (k := off + (varint s.length).length + k) (s := s)
    (by rw [o2.1]; omega)
  refine ⟨d3, ?_, ?_⟩
  · simp only [encBytes, h1, Option.bind_eq_bind, Option.bind_some, h2, h3, h4]
    congr 2; omega
  · rw [byteWire_append]
    apply o2.append
    rw [byteWire_length]
    have : 8 * (off + k) + 8 * (varint s.length).length = 8 * (off + (varint s.length).length + k) := by omega
    rwa [this]

/-! ### Scanning strings -/

theorem scanStr_ok {d : Buf} {pos length c : Nat} (h : scanStr d pos length = .ok c) :
    length ≤ c ∧ pos + c < d.length ∧ d.rd (pos + c) = some 0#8 ∧
      ∀ j, length ≤ j → j < c → d.rd (pos + j) ≠ some 0#8 := by
  fun_induction scanStr d pos length with
  | case1 => cases h
  | case2 length hb =>
    cases h
    exact ⟨Nat.le_refl _, rd_some_lt hb, hb, fun j h1 h2 => by omega⟩
  | case3 => cases h
  | case4 length b hb hne hlt ih =>
    obtain ⟨h1, h2, h3, h4⟩ := ih h
    refine ⟨by omega, h2, h3, fun j hj1 hj2 => ?_⟩
    by_cases e : j = length
    · subst e; rw [hb]; intro e; exact hne (by simpa using e)
    · exact h4 j (by omega) hj2

theorem scanStr_of {d : Buf} {pos c : Nat} (hc : d.rd (pos + c) = some 0#8) :
    ∀ m length, c - length = m → length ≤ c →
    (∀ j, length ≤ j → j < c → d.rd (pos + j) ≠ some 0#8) → scanStr d pos length = .ok c := by
  have hlt := rd_some_lt hc
  intro m
  induction m with
  | zero =>
    intro length h1 h2 _
    have : length = c := by omega
    subst this
    rw [scanStr, hc]; simp
  | succ m ih =>
    intro length h1 h2 h3
    have hl : pos + length < d.length := by omega
    rw [scanStr, rd_eq_some hl]
    have hne := h3 length (Nat.le_refl _) (by omega)
    rw [rd_eq_some hl] at hne
    have hne' : ¬ d.getD (pos + length) 0#8 = 0#8 := fun e => hne (by rw [e])
    simp only [hne', if_false]
    rw [if_neg (by omega)]
    exact ih (length + 1) (by omega) (by omega) (fun j hj1 hj2 => h3 j (by omega) hj2)

/-- Facts shared by the two leaf scanners of DecodeSize. -/
structure LeafSpec (leaf : Buf → Nat → Scan) : Prop where
  noPanic : ∀ d p, p < d.length → leaf d p ≠ .panic
  bound : ∀ d p c, leaf d p = .ok c → p + c ≤ d.length ∧ 0 < c
  ext : ∀ d e p c, leaf d p = .ok c → leaf (d ++ e) p = .ok c
  ret : ∀ d p r, leaf d p = .ret r → r < 0 ∧ (d.length ≤ maxInt → -2 ^ 63 ≤ r) ∧
    (∀ e c, (d ++ e).length ≤ maxInt → leaf (d ++ e) p = .ok c → -r ≤ ((d ++ e).length : Int)) ∧
    ((d.length : Int) < -r ∨ ∀ e c, (d ++ e).length ≤ maxInt → leaf (d ++ e) p ≠ .ok c)

theorem scanStr_noPanic {d : Buf} {pos length : Nat} (h : pos + length < d.length) :
    scanStr d pos length ≠ .panic := by
  fun_induction scanStr d pos length with
  | case1 length hb => rw [rd_eq_some h] at hb; cases hb
  | case2 => simp
  | case3 => simp
  | case4 length b hb hne hlt ih => exact ih (by omega)

theorem scanStr_ret {d : Buf} {pos length : Nat} {r : Int} (h : scanStr d pos length = .ret r) :
    r = -((d.length + 1 : Nat) : Int) ∧ pos ≤ d.length ∧
      ∀ j, length ≤ j → pos + j < d.length → d.rd (pos + j) ≠ some 0#8 := by
  fun_induction scanStr d pos length with
  | case1 => cases h
  | case2 => cases h
  | case3 length b hb hne hlt =>
    have hl := rd_some_lt hb
    cases h
    refine ⟨by congr 2; omega, by omega, fun j h1 h2 => ?_⟩
    have : j = length := by omega
    subst this; rw [hb]; intro e; exact hne (by simpa using e)
  | case4 length b hb hne hlt ih =>
    obtain ⟨h1, h2, h3⟩ := ih h
    refine ⟨h1, h2, fun j hj1 hj2 => ?_⟩
    by_cases e : j = length
    · subst e; rw [hb]; intro e; exact hne (by simpa using e)
    · exact h3 j (by omega) hj2

theorem dsStringAt_ok {d : Buf} {p c : Nat} (h : dsStringAt d p = .ok c) :
    scanStr d p 0 = .ok (c - 1) ∧ 0 < c := by
  unfold dsStringAt at h
  split at h
  · cases h; rename_i l hl; exact ⟨by simpa using hl, by omega⟩
  · rename_i h1; exact absurd h (h1 c)

theorem dsStringAt_ret {d : Buf} {p : Nat} {r : Int} (h : dsStringAt d p = .ret r) :
    scanStr d p 0 = .ret r := by
  unfold dsStringAt at h
  split at h
  · cases h
  · exact h

theorem stringLeaf : LeafSpec dsStringAt where
  noPanic d p h := by
    unfold dsStringAt
    have := scanStr_noPanic (d := d) (pos := p) (length := 0) (by omega)
    split
    · simp
    · exact this
  bound d p c h := by
    obtain ⟨h1, h2⟩ := dsStringAt_ok h
    have := scanStr_ok h1
    omega
  ext d e p c h := by
    obtain ⟨h1, h2⟩ := dsStringAt_ok h
    obtain ⟨_, a1, a2, a3⟩ := scanStr_ok h1
    have : scanStr (d ++ e) p 0 = .ok (c - 1) := by
      apply scanStr_of (c := c - 1) (by rw [rd_append a1]; exact a2) (c - 1) 0 (by omega) (by omega)
      intro j hj1 hj2
      rw [rd_append (by omega)]
      exact a3 j hj1 hj2
    unfold dsStringAt
    rw [this]
    simp; omega
  ret d p r h := by
    obtain ⟨h1, h2, h3⟩ := scanStr_ret (dsStringAt_ret h)
    have hm : maxInt = 2 ^ 63 - 1 := rfl
    refine ⟨by omega, by omega, fun e c he hc => ?_, Or.inl (by omega)⟩
    obtain ⟨a1, a2⟩ := dsStringAt_ok hc
    obtain ⟨_, b1, b2, b3⟩ := scanStr_ok a1
    have : ¬ p + (c - 1) < d.length := by
      intro hlt
      rw [rd_append hlt] at b2
      exact h3 (c - 1) (by omega) hlt b2
    omega

/-! ### Scanning length prefixes -/

theorem scanLen_ok {d : Buf} {acc : BitVec 64} {shift pos : Nat} {lv : BitVec 64} {last : Nat}
    (h : scanLen d acc shift pos = .ok lv last) : pos ≤ last ∧ last < d.length := by
  fun_induction scanLen d acc shift pos with
  | case1 => cases h
  | case2 => cases h
  | case3 acc shift pos b hb _ _ => cases h; exact ⟨Nat.le_refl _, rd_some_lt hb⟩
  | case4 => cases h
  | case5 => cases h
  | case6 acc shift pos b hb _ _ _ ih => have := ih h; omega

theorem scanLen_ext {d : Buf} {acc : BitVec 64} {shift pos : Nat} {lv : BitVec 64} {last : Nat} (e : Buf)
    (h : scanLen d acc shift pos = .ok lv last) : scanLen (d ++ e) acc shift pos = .ok lv last := by
  fun_induction scanLen d acc shift pos with
  | case1 => cases h
  | case2 => cases h
  | case3 acc shift pos b hb h1 h2 =>
    rw [scanLen, rd_append (rd_some_lt hb), hb]; simp only [h1, h2, if_true, if_false]; exact h
  | case4 => cases h
  | case5 => cases h
  | case6 acc shift pos b hb h1 h2 h3 ih =>
    rw [scanLen, rd_append (rd_some_lt hb), hb]
    have : ¬ (d ++ e).length ≤ pos + 1 := by rw [List.length_append]; omega
    simp only [h1, h2, this, if_true, if_false]
    exact ih h

theorem scanLen_noPanic {d : Buf} {acc : BitVec 64} {shift pos : Nat} (h : pos < d.length) :
    scanLen d acc shift pos ≠ .panic := by
  fun_induction scanLen d acc shift pos with
  | case1 acc shift pos hb => rw [rd_eq_some h] at hb; cases hb
  | case2 => simp
  | case3 => simp
  | case4 => simp
  | case5 => simp
  | case6 acc shift pos b hb _ _ _ ih => exact ih (by omega)

theorem scanLen_ret {d : Buf} {acc : BitVec 64} {shift pos : Nat} {r : Int}
    (h : scanLen d acc shift pos = .ret r) :
    (r = -1 ∧ ∀ e, scanLen (d ++ e) acc shift pos = .ret (-1)) ∨
    (r = -((d.length + 1 : Nat) : Int) ∧
      ∀ e lv last, scanLen (d ++ e) acc shift pos = .ok lv last → d.length ≤ last) := by
  fun_induction scanLen d acc shift pos with
  | case1 => cases h
  | case2 acc shift pos b hb h1 h2 =>
    cases h
    refine Or.inl ⟨rfl, fun e => ?_⟩
    rw [scanLen, rd_append (rd_some_lt hb), hb]; simp only [h1, h2, if_true, if_false]
  | case3 => cases h
  | case4 acc shift pos b hb h1 h2 =>
    cases h
    refine Or.inl ⟨rfl, fun e => ?_⟩
    rw [scanLen, rd_append (rd_some_lt hb), hb]; simp only [h1, h2, if_true, if_false]
  | case5 acc shift pos b hb h1 h2 h3 =>
    have hl := rd_some_lt hb
    cases h
    refine Or.inr ⟨by congr 2; omega, fun e lv last he => ?_⟩
    rw [scanLen, rd_append hl, hb] at he
    simp only [h1, h2, if_true, if_false] at he
    split at he
    · cases he
    · have := scanLen_ok he; omega
  | case6 acc shift pos b hb h1 h2 h3 ih =>
    have key : ∀ e, scanLen (d ++ e) acc shift pos =
        scanLen (d ++ e) (acc ||| ((b &&& 0x7F#8).setWidth 64 <<< shift)) (shift + 7) (pos + 1) := by
      intro e
      rw [scanLen, rd_append (rd_some_lt hb), hb]
      have : ¬ (d ++ e).length ≤ pos + 1 := by rw [List.length_append]; omega
      simp only [h1, h2, this, if_true, if_false]
    rcases ih h with ⟨a, b⟩ | ⟨a, b⟩
    · exact Or.inl ⟨a, fun e => by rw [key]; exact b e⟩
    · exact Or.inr ⟨a, fun e lv last he => by rw [key] at he; exact b e lv last he⟩

theorem dsBytesAt_ok {d : Buf} {p c : Nat} (h : dsBytesAt d p = .ok c) :
    ∃ lv last, scanLen d 0#64 0 p = .ok lv last ∧ lv.toNat ≤ maxInt ∧
      c = last + 1 + lv.toNat - p ∧ last + 1 + lv.toNat ≤ d.length := by
  unfold dsBytesAt at h
  split at h
  · cases h
  · cases h
  · rename_i lv last hs
    refine ⟨lv, last, hs, ?_⟩
    have := scanLen_ok hs
    split at h
    · cases h
    · simp only at h
      split at h
      · split at h <;> cases h
      · cases h; omega

theorem dsBytesAt_of {d : Buf} {p : Nat} {lv : BitVec 64} {last : Nat}
    (h1 : scanLen d 0#64 0 p = .ok lv last) (h2 : lv.toNat ≤ maxInt)
    (h3 : last + 1 + lv.toNat ≤ d.length) : dsBytesAt d p = .ok (last + 1 + lv.toNat - p) := by
  unfold dsBytesAt
  rw [h1]
  simp only
  rw [if_neg (by omega), if_neg (by omega)]

theorem bytesLeaf : LeafSpec dsBytesAt where
  noPanic d p h := by
    unfold dsBytesAt
    have := scanLen_noPanic (d := d) (acc := 0#64) (shift := 0) (pos := p) h
    split
    · contradiction
    · simp
    · simp only
      split
      · simp
      · split
        · split <;> simp
        · simp
  bound d p c h := by
    obtain ⟨lv, last, h1, h2, h3, h4⟩ := dsBytesAt_ok h
    have := scanLen_ok h1
    omega
  ext d e p c h := by
    obtain ⟨lv, last, h1, h2, h3, h4⟩ := dsBytesAt_ok h
    rw [h3]
    exact dsBytesAt_of (scanLen_ext e h1) h2 (by rw [List.length_append]; omega)
  ret d p r h := by
    have hm : maxInt = 2 ^ 63 - 1 := rfl
    unfold dsBytesAt at h
    split at h
    · cases h
    · rename_i r' hs
      cases h
      rcases scanLen_ret hs with ⟨a, b⟩ | ⟨a, b⟩
      · have never : ∀ e c, dsBytesAt (d ++ e) p ≠ .ok c := by
          intro e c hc
          obtain ⟨lv, last, h1, _⟩ := dsBytesAt_ok hc
          rw [b e] at h1; cases h1
        exact ⟨by omega, by omega, fun e c _ hc => absurd hc (never e c), Or.inr (fun e c _ => never e c)⟩
      · refine ⟨by omega, by omega, fun e c he hc => ?_, Or.inl (by omega)⟩
        obtain ⟨lv, last, h1, h2, h3, h4⟩ := dsBytesAt_ok hc
        have := b e lv last h1
        omega
    · rename_i lv last hs
      have hl := scanLen_ok hs
      have big : ∀ e c, dsBytesAt (d ++ e) p = .ok c → last + 1 + lv.toNat ≤ (d ++ e).length ∧ lv.toNat ≤ maxInt := by
        intro e c hc
        obtain ⟨lv', last', h1, h2, h3, h4⟩ := dsBytesAt_ok hc
        rw [scanLen_ext e hs] at h1
        cases h1; exact ⟨h4, h2⟩
      split at h
      · cases h
        rename_i hgt
        have never : ∀ e c, dsBytesAt (d ++ e) p ≠ .ok c := by
          intro e c hc; have := (big e c hc).2; omega
        exact ⟨by omega, by omega, fun e c _ hc => absurd hc (never e c), Or.inr (fun e c _ => never e c)⟩
      · simp only at h
        split at h
        · split at h
          · cases h
            rename_i h1 h2 h3
            have never : ∀ e c, (d ++ e).length ≤ maxInt → dsBytesAt (d ++ e) p ≠ .ok c := by
              intro e c he hc; have := (big e c hc).1; omega
            exact ⟨by omega, by omega, fun e c he hc => absurd hc (never e c he), Or.inr never⟩
          · cases h
            rename_i h1 h2 h3
            refine ⟨by omega, by omega, fun e c _ hc => ?_, Or.inl (by omega)⟩
            have := (big e c hc).1; omega
        · cases h

/-! ### Decoding what was scanned -/

theorem decStrLen_of_scan {d : Buf} {pos length c : Nat} (h : scanStr d pos length = .ok c) :
    decStrLen d pos length = .ok c := by
  fun_induction scanStr d pos length with
  | case1 => cases h
  | case2 length hb =>
    rw [decStrLen]; split
    · rename_i e; rw [e] at hb; cases hb
    · rename_i b' e; rw [e] at hb; cases hb; cases h; simp
  | case3 => cases h
  | case4 length b hb hne hlt ih =>
    rw [decStrLen]; split
    · rename_i e; rw [e] at hb; cases hb
    · rename_i b' e; rw [e] at hb; cases hb; rw [if_neg hne]; exact ih h

theorem decString_of_ds {d : Buf} {off k c : Nat} (h : dsStringAt d (off + k) = .ok c) :
    decString k d off = .ok ((d.drop (off + k)).take (c - 1), off + c) ∧
      0#8 ∉ (d.drop (off + k)).take (c - 1) := by
  obtain ⟨h1, h2⟩ := dsStringAt_ok h
  obtain ⟨_, a1, a2, a3⟩ := scanStr_ok h1
  refine ⟨?_, ?_⟩
  · unfold decString
    rw [decStrLen_of_scan h1]
    simp only [Res.bind]
    congr 2; omega
  · intro hm
    obtain ⟨j, hj, e⟩ := List.mem_take_iff_getElem.mp hm
    have hlen : j < c - 1 := by omega
    apply a3 j (Nat.zero_le _) hlen
    rw [List.getElem_drop] at e
    simp only [Buf.rd]
    rw [← e]
    apply List.getElem?_eq_getElem

theorem decLen_of_scan {d : Buf} {acc : BitVec 64} {shift pos : Nat} {lv : BitVec 64} {last k off : Nat}
    (hp : pos = off + k) (h : scanLen d acc shift pos = .ok lv last) :
    decLen k d acc shift off = .ok (lv, last - pos + off + 1) := by
  subst hp
  generalize hpos : off + k = pos at h
  fun_induction scanLen d acc shift pos generalizing off with
  | case1 => cases h
  | case2 => cases h
  | case3 acc shift pos b hb h1 h2 =>
    cases h; subst hpos
    rw [decLen]; split
    · rename_i e; rw [e] at hb; cases hb
    · rename_i b' e; rw [e] at hb; cases hb; rw [if_pos h1]; congr 2; omega
  | case4 => cases h
  | case5 => cases h
  | case6 acc shift pos b hb h1 h2 h3 ih =>
    have hok := scanLen_ok h
    subst hpos
    rw [decLen]; split
    · rename_i e; rw [e] at hb; cases hb
    · rename_i b' e; rw [e] at hb; cases hb; rw [if_neg h1, ih (by omega) h]; congr 2; omega

theorem decBytes_of_ds {d : Buf} {off k : Nat} {lv : BitVec 64} {last : Nat}
    (h1 : scanLen d 0#64 0 (off + k) = .ok lv last) (h2 : lv.toNat ≤ maxInt)
    (h3 : last + 1 + lv.toNat ≤ d.length) :
    decBytes k d off = .ok ((d.drop (last + 1)).take lv.toNat, off + (last + 1 + lv.toNat - (off + k))) := by
  have hl := scanLen_ok h1
  unfold decBytes
  rw [decLen_of_scan rfl h1]
  simp only [Res.bind]
  have hm : lv.msb = false := by
    rw [BitVec.msb_eq_false_iff_two_mul_lt]
    have hm : maxInt = 2 ^ 63 - 1 := rfl
    omega
  have e : last - (off + k) + off + 1 + k = last + 1 := by omega
  rw [hm, e]
  simp only [Bool.false_eq_true, if_false]
  rw [if_neg (by omega)]
  congr 2; omega

/-! ### Scanning one's own encoding -/

theorem dsStringAt_agrees {d : Buf} {p : Nat} {s : List Byte} (h : Agrees d (8 * p) (byteWire (s ++ [0#8])))
    (hz : 0#8 ∉ s) : dsStringAt d p = .ok (s.length + 1) ∧ (d.drop p).take s.length = s := by
  rw [byteWire_append, Agrees.append] at h
  obtain ⟨h1, h2⟩ := h
  rw [byteWire_length] at h2
  have e : 8 * p + 8 * s.length = 8 * (p + s.length) := by omega
  rw [e] at h2
  obtain ⟨a1, a2⟩ := h1.bytes
  obtain ⟨b1, b2⟩ := h2.bytes
  simp only [List.length_cons, List.length_nil] at b2
  refine ⟨?_, a1⟩
  have hget : ∀ j, j < s.length → d.rd (p + j) = s[j]? := by
    intro j hj
    have : ((d.drop p).take s.length)[j]? = s[j]? := by rw [a1]
    rw [List.getElem?_take, if_pos hj, List.getElem?_drop] at this
    exact this
  have hend : d.rd (p + s.length) = some 0#8 := by
    have : ((d.drop (p + s.length)).take 1)[0]? = [0#8][0]? := by
      have hb : (d.drop (p + s.length)).take 1 = [0#8] := b1
      rw [hb]
    rw [List.getElem?_take, if_pos (by omega), List.getElem?_drop] at this
    exact this
  have : scanStr d p 0 = .ok s.length := by
    apply scanStr_of hend s.length 0 (by omega) (Nat.zero_le _)
    intro j _ hj
    rw [hget j hj]
    intro e
    exact hz (List.mem_of_getElem? e)
  unfold dsStringAt
  rw [this]

theorem testHi : ∀ a, a < 128 → (BitVec.ofNat 8 a &&& 0x80#8 = 0#8) ∧
    ¬ (BitVec.ofNat 8 (a + 128) &&& 0x80#8 = 0#8) ∧
    (BitVec.ofNat 8 a &&& 0x7F#8) = BitVec.ofNat 8 a ∧
    (BitVec.ofNat 8 (a + 128) &&& 0x7F#8) = BitVec.ofNat 8 a := by
  decide +kernel

theorem acc_step {a m s : Nat} (ha : a < 2 ^ s) (hm : m < 128) (hs : s + 7 ≤ 64) :
    (BitVec.ofNat 64 a ||| ((BitVec.ofNat 8 m).setWidth 64 <<< s)) = BitVec.ofNat 64 (a + m * 2 ^ s) := by
  apply BitVec.eq_of_toNat_eq
  have hp : (2 : Nat) ^ s * 128 ≤ 2 ^ 64 := by
    have : (128 : Nat) = 2 ^ 7 := rfl
    rw [this, ← Nat.pow_add]; exact Nat.pow_le_pow_right (by omega) hs
  have h0 : 0 < 2 ^ s := Nat.two_pow_pos s
  have hlt : a + m * 2 ^ s < 2 ^ 64 := by
    have : m * 2 ^ s + 2 ^ s ≤ 2 ^ s * 128 := by
      have : (m + 1) * 2 ^ s ≤ 128 * 2 ^ s := Nat.mul_le_mul_right _ (by omega)
      rw [Nat.add_mul, Nat.one_mul] at this
      omega
    omega
  have hma : m * 2 ^ s < 2 ^ 64 := by omega
  simp only [BitVec.toNat_or, BitVec.toNat_ofNat, BitVec.toNat_shiftLeft, BitVec.toNat_setWidth,
    Nat.shiftLeft_eq]
  rw [Nat.mod_eq_of_lt (show a < 2 ^ 64 by omega), Nat.mod_eq_of_lt (show m < 2 ^ 8 by omega),
    Nat.mod_eq_of_lt (show m < 2 ^ 64 by omega), Nat.mod_eq_of_lt hma, Nat.mod_eq_of_lt hlt]
  have := Nat.two_pow_add_eq_or_of_lt ha m
  rw [Nat.mul_comm m, Nat.or_comm, ← this, Nat.add_comm]

theorem rd_of_bytes {d : Buf} {p : Nat} {b : Byte} {s : List Byte}
    (h : (d.drop p).take (b :: s).length = b :: s) : d.rd p = some b := by
  have : ((d.drop p).take (b :: s).length)[0]? = (b :: s)[0]? := by rw [h]
  rw [List.getElem?_take, if_pos (by simp), List.getElem?_drop] at this
  simpa [Buf.rd] using this

theorem scanLen_varint (d : Buf) (n : Nat) : ∀ (a shift pos : Nat), a < 2 ^ shift → shift < 63 →
    n < 2 ^ (63 - shift) → shift % 7 = 0 →
    (d.drop pos).take (varint n).length = varint n → pos + (varint n).length ≤ d.length →
    scanLen d (BitVec.ofNat 64 a) shift pos =
      .ok (BitVec.ofNat 64 (a + n * 2 ^ shift)) (pos + (varint n).length - 1) := by
  induction n using varint.induct with
  | case1 n hn =>
    intro a shift pos ha hs hlt h7 hv hl
    have e : varint n = [BitVec.ofNat 8 n] := by rw [varint, if_pos hn]
    rw [e] at hv hl ⊢
    obtain ⟨t1, t2, t3, t4⟩ := testHi n hn
    rw [scanLen, rd_of_bytes hv]
    simp only [t1, if_true]
    rw [if_neg (by omega), t3, acc_step ha hn (by omega)]
    simp
  | case2 n hn ih =>
    intro a shift pos ha hs hlt h7 hv hl
    have e : varint n = BitVec.ofNat 8 (n % 128 + 128) :: varint (n / 128) := by
      rw [varint, if_neg hn]
    rw [e] at hv hl ⊢
    obtain ⟨t1, t2, t3, t4⟩ := testHi (n % 128) (by omega)
    have hpos := varint_ne_nil (n / 128)
    simp only [List.length_cons] at hl ⊢
    have hs2 : shift + 7 < 63 := by
      have : 128 < 2 ^ (63 - shift) ∨ 128 = 2 ^ (63 - shift) := by omega
      by_cases c : shift + 7 < 63
      · exact c
      · exfalso
        have : 2 ^ (63 - shift) ≤ 2 ^ 7 := Nat.pow_le_pow_right (by omega) (by omega)
        have : (2 : Nat) ^ 7 = 128 := rfl
        omega
    rw [scanLen, rd_of_bytes hv]
    simp only [t2, if_false]
    rw [if_neg (by omega), if_neg (by omega), t4, acc_step ha (by omega) (by omega)]
    have hn2 : n / 128 < 2 ^ (63 - (shift + 7)) := by
      have e1 : 2 ^ (63 - shift) = 2 ^ (63 - (shift + 7)) * 128 := by
        have : (128 : Nat) = 2 ^ 7 := rfl
        rw [this, ← Nat.pow_add]; congr 1; omega
      rw [Nat.div_lt_iff_lt_mul (by omega)]; omega
    have hv2 : (d.drop (pos + 1)).take (varint (n / 128)).length = varint (n / 128) := by
      have h1 : ((d.drop pos).take ((varint (n / 128)).length + 1)).drop 1 =
          (BitVec.ofNat 8 (n % 128 + 128) :: varint (n / 128)).drop 1 := by
        rw [List.length_cons] at hv; rw [hv]
      rw [List.drop_take, List.drop_drop] at h1
      simpa using h1
    have ha2 : a + n % 128 * 2 ^ shift < 2 ^ (shift + 7) := by
      have h128 : (2 : Nat) ^ (shift + 7) = 128 * 2 ^ shift := by rw [Nat.pow_add, Nat.mul_comm]
      have : (n % 128 + 1) * 2 ^ shift ≤ 128 * 2 ^ shift := Nat.mul_le_mul_right _ (by omega)
      rw [Nat.add_mul, Nat.one_mul] at this
      omega
    rw [ih _ (shift + 7) (pos + 1) ha2 hs2 hn2 (by omega) hv2 (by omega)]
    have e1 : a + n % 128 * 2 ^ shift + n / 128 * 2 ^ (shift + 7) = a + n * 2 ^ shift := by
      have h128 : (2 : Nat) ^ (shift + 7) = 128 * 2 ^ shift := by rw [Nat.pow_add, Nat.mul_comm]
      have h3 : n * 2 ^ shift = (128 * (n / 128) + n % 128) * 2 ^ shift := by rw [Nat.div_add_mod]
      rw [h128, h3, Nat.add_mul, ← Nat.mul_assoc, Nat.mul_comm (n / 128) 128]
      omega
    rw [e1]
    congr 1; omega

theorem scanLen_agrees {d : Buf} {p : Nat} {s : List Byte}
    (h : Agrees d (8 * p) (byteWire (varint s.length ++ s))) (hm : s.length ≤ maxInt) :
    scanLen d 0#64 0 p = .ok (BitVec.ofNat 64 s.length) (p + (varint s.length).length - 1) ∧
      (d.drop (p + (varint s.length).length)).take s.length = s ∧
      p + (varint s.length).length + s.length ≤ d.length := by
  rw [byteWire_append, Agrees.append] at h
  obtain ⟨h1, h2⟩ := h
  rw [byteWire_length] at h2
  have e : 8 * p + 8 * (varint s.length).length = 8 * (p + (varint s.length).length) := by omega
  rw [e] at h2
  obtain ⟨a1, a2⟩ := h1.bytes
  obtain ⟨b1, b2⟩ := h2.bytes
  have hmx : maxInt = 2 ^ 63 - 1 := rfl
  have := scanLen_varint d s.length 0 0 p (by simp) (by omega) (by simp; omega) rfl a1 a2
  refine ⟨?_, b1, b2⟩
  simpa using this

theorem toNat_ofNat_maxInt {n : Nat} (hm : n ≤ maxInt) : (BitVec.ofNat 64 n).toNat = n := by
  rw [BitVec.toNat_ofNat]
  apply Nat.mod_eq_of_lt
  have hmx : maxInt = 2 ^ 63 - 1 := rfl
  omega

theorem dsBytesAt_agrees {d : Buf} {p : Nat} {s : List Byte}
    (h : Agrees d (8 * p) (byteWire (varint s.length ++ s))) (hm : s.length ≤ maxInt) :
    dsBytesAt d p = .ok ((varint s.length).length + s.length) := by
  obtain ⟨h1, h2, h3⟩ := scanLen_agrees h hm
  have hv := varint_ne_nil s.length
  have e := toNat_ofNat_maxInt hm
  rw [dsBytesAt_of h1 (by rw [e]; exact hm) (by rw [e]; omega), e]
  congr 1; omega

theorem decBytes_agrees {d : Buf} {off k : Nat} {s : List Byte}
    (h : Agrees d (8 * (off + k)) (byteWire (varint s.length ++ s))) (hm : s.length ≤ maxInt) :
    decBytes k d off = .ok (s, off + ((varint s.length).length + s.length)) := by
  obtain ⟨h1, h2, h3⟩ := scanLen_agrees h hm
  have hv := varint_ne_nil s.length
  have e := toNat_ofNat_maxInt hm
  rw [decBytes_of_ds h1 (by rw [e]; exact hm) (by rw [e]; omega), e]
  have e2 : off + k + (varint s.length).length - 1 + 1 = off + k + (varint s.length).length := by omega
  rw [e2, h2]
  congr 2; omega

theorem decString_agrees {d : Buf} {off k : Nat} {s : List Byte}
    (h : Agrees d (8 * (off + k)) (byteWire (s ++ [0#8]))) (hz : 0#8 ∉ s) :
    decString k d off = .ok (s, off + (s.length + 1)) := by
  obtain ⟨h1, h2⟩ := dsStringAt_agrees h hz
  rw [(decString_of_ds h1).1]
  simp [h2]

end Bubbler
