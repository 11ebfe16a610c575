import Verif.Codec.Repr
import Verif.Codec.ScanExt

set_option linter.unusedSimpArgs false
namespace Bubbler

/-! ### LEB128 -/

theorem leb_varint (n : Nat) : leb (varint n) = some n := by
  induction n using varint.induct with
  | case1 n hn =>
    rw [varint, if_pos hn]
    have : (BitVec.ofNat 8 n).toNat = n := by rw [BitVec.toNat_ofNat]; omega
    simp [leb, this, hn]
  | case2 n hn ih =>
    rw [varint, if_neg hn]
    have : (BitVec.ofNat 8 (n % 128 + 128)).toNat = n % 128 + 128 := by rw [BitVec.toNat_ofNat]; omega
    simp only [leb, this, ih, Option.map_some]
    rw [if_neg (by omega)]
    congr 1; omega

theorem leb_lt : ∀ (bs : List Byte) (m : Nat), leb bs = some m → m < 2 ^ (7 * bs.length)
  | [], m, h => by simp [leb] at h
  | b :: bs, m, h => by
    simp only [leb] at h
    split at h
    · split at h
      · rename_i h1 h2
        subst h2; cases h; simp; omega
      · cases h
    · rename_i h1
      cases hb : leb bs with
      | none => rw [hb] at h; cases h
      | some m' =>
        rw [hb] at h
        simp only [Option.map_some, Option.some.injEq] at h
        have ih := leb_lt bs m' hb
        have : b.toNat < 256 := b.isLt
        have e : 2 ^ (7 * (b :: bs).length) = 128 * 2 ^ (7 * bs.length) := by
          rw [List.length_cons, Nat.mul_add, Nat.pow_add]; omega
        rw [e]; omega

theorem leb_ne_nil {bs : List Byte} {m : Nat} (h : leb bs = some m) : 0 < bs.length := by
  cases bs with
  | nil => simp [leb] at h
  | cons => simp

theorem varint_length_le {n : Nat} (k : Nat) (hk : 0 < k) (h : n < 2 ^ (7 * k)) : (varint n).length ≤ k := by
  induction n using varint.induct generalizing k with
  | case1 n hn => rw [varint, if_pos hn]; simp; omega
  | case2 n hn ih =>
    rw [varint, if_neg hn, List.length_cons]
    have hk2 : 1 < k := by
      by_cases c : 1 < k
      · exact c
      · have : k = 1 := by omega
        subst this; simp at h; omega
    have : n / 128 < 2 ^ (7 * (k - 1)) := by
      rw [Nat.div_lt_iff_lt_mul (by omega)]
      have e : 2 ^ (7 * k) = 2 ^ (7 * (k - 1)) * 128 := by
        have : (128 : Nat) = 2 ^ 7 := rfl
        rw [this, ← Nat.pow_add]; congr 1; omega
      omega
    have := ih (k - 1) (by omega) this
    omega

theorem varint_le9 {n : Nat} (h : n ≤ maxInt) : (varint n).length ≤ 9 :=
  varint_length_le 9 (by omega) (by simp only [maxInt] at h; omega)

theorem ofNat_toNat8 (b : Byte) (h : b.toNat < 128) : ∃ a, a < 128 ∧ b = BitVec.ofNat 8 a ∧ b.toNat = a :=
  ⟨b.toNat, h, by simp, rfl⟩

theorem ofNat_toNat8' (b : Byte) (h : ¬ b.toNat < 128) :
    ∃ a, a < 128 ∧ b = BitVec.ofNat 8 (a + 128) ∧ b.toNat - 128 = a := by
  have := b.isLt
  exact ⟨b.toNat - 128, by omega, by rw [Nat.sub_add_cancel (by omega)]; simp, rfl⟩

theorem acc_lt {a m shift : Nat} (ha : a < 2 ^ shift) (hm : m < 128) : a + m * 2 ^ shift < 2 ^ (shift + 7) := by
  have h128 : (2 : Nat) ^ (shift + 7) = 128 * 2 ^ shift := by rw [Nat.pow_add, Nat.mul_comm]
  have : (m + 1) * 2 ^ shift ≤ 128 * 2 ^ shift := Nat.mul_le_mul_right _ (by omega)
  rw [Nat.add_mul, Nat.one_mul] at this
  omega

theorem acc_combine {a x m shift : Nat} :
    a + x * 2 ^ shift + m * 2 ^ (shift + 7) = a + (x + 128 * m) * 2 ^ shift := by
  have h128 : (2 : Nat) ^ (shift + 7) = 128 * 2 ^ shift := by rw [Nat.pow_add, Nat.mul_comm]
  rw [h128, Nat.add_mul, ← Nat.mul_assoc, Nat.mul_comm m 128]; omega

theorem scanLen_of_leb (d : Buf) : ∀ (bs : List Byte) (m a shift pos : Nat), a < 2 ^ shift →
    shift + 7 * bs.length ≤ 63 → leb bs = some m →
    (d.drop pos).take bs.length = bs → pos + bs.length ≤ d.length →
    scanLen d (BitVec.ofNat 64 a) shift pos = .ok (BitVec.ofNat 64 (a + m * 2 ^ shift)) (pos + bs.length - 1)
  | [], m, a, shift, pos => by intro _ _ h; simp [leb] at h
  | b :: bs, m, a, shift, pos => by
    intro ha hs h hv hl
    simp only [leb] at h
    simp only [List.length_cons] at hs hl ⊢
    by_cases hb : b.toNat < 128
    · rw [if_pos hb] at h
      split at h
      · rename_i hnil
        cases h
        obtain ⟨x, hx, e1, e2⟩ := ofNat_toNat8 b hb
        obtain ⟨t1, t2, t3, t4⟩ := testHi x hx
        rw [scanLen, rd_of_bytes hv, e2, e1]
        simp only [t1, if_true]
        rw [if_neg (by omega), t3, acc_step ha hx (by omega)]
        subst hnil; simp
      · cases h
    · rw [if_neg hb] at h
      cases hr : leb bs with
      | none => rw [hr] at h; cases h
      | some m' =>
        rw [hr] at h
        simp only [Option.map_some, Option.some.injEq] at h
        obtain ⟨x, hx, e1, e2⟩ := ofNat_toNat8' b hb
        obtain ⟨t1, t2, t3, t4⟩ := testHi x hx
        have hne := leb_ne_nil hr
        rw [scanLen, rd_of_bytes hv, e1]
        simp only [t2, if_false]
        rw [if_neg (by omega), if_neg (by omega), t4, acc_step ha hx (by omega)]
        have hv2 : (d.drop (pos + 1)).take bs.length = bs := by
          have h1 : ((d.drop pos).take (bs.length + 1)).drop 1 = (b :: bs).drop 1 := by
            rw [List.length_cons] at hv; rw [hv]
          rw [List.drop_take, List.drop_drop] at h1
          simpa using h1
        rw [scanLen_of_leb d bs m' _ (shift + 7) (pos + 1) (acc_lt ha hx) (by omega) hr hv2 (by omega),
          acc_combine, ← h, e2]
        have e3 : pos + 1 + bs.length - 1 = pos + (bs.length + 1) - 1 := by omega
        rw [e3]

theorem scanLen_to_leb {d : Buf} {a shift pos : Nat} {lv : BitVec 64} {last : Nat} (ha : a < 2 ^ shift)
    (h7 : shift % 7 = 0) (h : scanLen d (BitVec.ofNat 64 a) shift pos = .ok lv last) :
    ∃ bs m, leb bs = some m ∧ shift + 7 * bs.length ≤ 63 ∧ (d.drop pos).take bs.length = bs ∧
      pos + bs.length = last + 1 ∧ lv = BitVec.ofNat 64 (a + m * 2 ^ shift) := by
  have key : ∀ (fuel a shift pos : Nat), d.length - pos = fuel → a < 2 ^ shift → shift % 7 = 0 →
      scanLen d (BitVec.ofNat 64 a) shift pos = .ok lv last →
      ∃ bs m, leb bs = some m ∧ shift + 7 * bs.length ≤ 63 ∧ (d.drop pos).take bs.length = bs ∧
        pos + bs.length = last + 1 ∧ lv = BitVec.ofNat 64 (a + m * 2 ^ shift) := by
    intro fuel
    induction fuel using Nat.strongRecOn with
    | ind fuel ih =>
      intro a shift pos hfuel ha h7 h
      rw [scanLen] at h
      cases hb : d.rd pos with
      | none => rw [hb] at h; cases h
      | some b =>
        have hlt := rd_some_lt hb
        have hdrop : d.drop pos = b :: d.drop (pos + 1) := by
          have : d[pos] = b := by
            simp only [Buf.rd] at hb
            rw [List.getElem?_eq_getElem hlt] at hb
            simpa using hb
          rw [List.drop_eq_getElem_cons hlt, this]
        rw [hb] at h
        simp only at h
        by_cases hc : b.toNat < 128
        · obtain ⟨x, hx, e1, e2⟩ := ofNat_toNat8 b hc
          obtain ⟨t1, t2, t3, t4⟩ := testHi x hx
          rw [e1] at h
          simp only [t1, if_true] at h
          split at h
          · cases h
          · rename_i hs
            rw [t3, acc_step ha hx (by omega)] at h
            cases h
            refine ⟨[b], x, by simp [leb, hc, e2, hx], by simp; omega, by rw [hdrop]; simp, by simp, rfl⟩
        · obtain ⟨x, hx, e1, e2⟩ := ofNat_toNat8' b hc
          obtain ⟨t1, t2, t3, t4⟩ := testHi x hx
          rw [e1] at h
          simp only [t2, if_false] at h
          split at h
          · cases h
          · rename_i hs
            split at h
            · cases h
            · rename_i hl
              rw [t4, acc_step ha hx (by omega)] at h
              obtain ⟨bs, m, h1, h2, h3, h4, h5⟩ := ih (d.length - (pos + 1)) (by omega) _ (shift + 7) (pos + 1) rfl
                (acc_lt ha hx) (by omega) h
              refine ⟨b :: bs, x + 128 * m, ?_, ?_, ?_, ?_, ?_⟩
              · simp only [leb]; rw [if_neg hc, h1, e2]; rfl
              · rw [List.length_cons]; omega
              · rw [hdrop, List.length_cons, List.take_succ_cons, h3]
              · rw [List.length_cons]; omega
              · rw [h5, acc_combine]
  exact key _ a shift pos rfl ha h7 h

/-- A bytes field is read exactly when a representation is there. -/
theorem bytes_repr_of {d : Buf} {p : Nat} {bs s : List Byte} (h1 : leb bs = some s.length) (h2 : bs.length ≤ 9)
    (h : Agrees d (8 * p) (byteWire (bs ++ s))) :
    scanLen d 0#64 0 p = .ok (BitVec.ofNat 64 s.length) (p + bs.length - 1) ∧
      (d.drop (p + bs.length)).take s.length = s ∧ p + bs.length + s.length ≤ d.length ∧ s.length ≤ maxInt := by
  rw [byteWire_append, Agrees.append] at h
  obtain ⟨a, b⟩ := h
  rw [byteWire_length] at b
  have e : 8 * p + 8 * bs.length = 8 * (p + bs.length) := by omega
  rw [e] at b
  obtain ⟨a1, a2⟩ := a.bytes
  obtain ⟨b1, b2⟩ := b.bytes
  have hlt := leb_lt _ _ h1
  have : 2 ^ (7 * bs.length) ≤ 2 ^ 63 := Nat.pow_le_pow_right (by omega) (by omega)
  have := scanLen_of_leb d bs s.length 0 0 p (by simp) (by omega) h1 a1 a2
  refine ⟨by simpa using this, b1, b2, by simp only [maxInt]; omega⟩

theorem bytes_repr_to {d : Buf} {p : Nat} {lv : BitVec 64} {last : Nat}
    (h1 : scanLen d 0#64 0 p = .ok lv last) (h3 : last + 1 + lv.toNat ≤ d.length) :
    ∃ bs, leb bs = some ((d.drop (last + 1)).take lv.toNat).length ∧ bs.length ≤ 9 ∧ p + bs.length = last + 1 ∧
      Agrees d (8 * p) (byteWire (bs ++ (d.drop (last + 1)).take lv.toNat)) := by
  obtain ⟨bs, m, a1, a2, a3, a4, a5⟩ := scanLen_to_leb (a := 0) (by simp) (by simp) h1
  have hlt := leb_lt _ _ a1
  have h64 : 2 ^ (7 * bs.length) ≤ 2 ^ 63 := Nat.pow_le_pow_right (by omega) (by omega)
  have hlv : lv.toNat = m := by
    rw [a5]; simp only [Nat.zero_add, Nat.pow_zero, Nat.mul_one, BitVec.toNat_ofNat]
    exact Nat.mod_eq_of_lt (by omega)
  have hlen : ((d.drop (last + 1)).take lv.toNat).length = m := by
    rw [List.length_take, List.length_drop]; omega
  refine ⟨bs, by rw [hlen]; exact a1, by omega, a4, ?_⟩
  rw [byteWire_append, Agrees.append, byteWire_length]
  have e : 8 * p + 8 * bs.length = 8 * (p + bs.length) := by omega
  rw [e]
  refine ⟨agrees_bytes_iff.mpr ⟨a3, by omega⟩, ?_⟩
  rw [agrees_bytes_iff, hlen, a4, hlv]
  exact ⟨rfl, by omega⟩

theorem string_repr_to {d : Buf} {p c : Nat} (h : dsStringAt d p = .ok c) :
    Agrees d (8 * p) (byteWire ((d.drop p).take (c - 1) ++ [0#8])) ∧ 0 < c ∧ p + c ≤ d.length := by
  obtain ⟨h1, h2⟩ := dsStringAt_ok h
  obtain ⟨_, a1, a2, a3⟩ := scanStr_ok h1
  refine ⟨?_, h2, by omega⟩
  rw [agrees_bytes_iff]
  have hl : ((d.drop p).take (c - 1)).length = c - 1 := by rw [List.length_take, List.length_drop]; omega
  refine ⟨?_, by rw [List.length_append, hl]; simp; omega⟩
  rw [List.length_append, hl]
  simp only [List.length_cons, List.length_nil]
  have hx : c - 1 + (0 + 1) = (c - 1) + 1 := by omega
  rw [hx, List.take_add_one]
  congr 1
  rw [List.getElem?_drop]
  simp only [Buf.rd] at a2
  rw [a2]; rfl

/-! ### Representable values -/

mutual
  theorem Ty.Repr_ok (c : Cfg) : ∀ (t : Ty) (arr lp big : Bool) (start n : Nat) (v : t.Val) (ws : List (Option Bool)),
      t.wf = true → t.elemOk arr start n → t.Repr c lp n big v ws → t.Valid c false lp v ∧ t.InRange n v
    | .sc s, arr, lp, big, start, n, (v : BitVec s.width), ws => by
      intro _ hok h
      simp only [Ty.elemOk] at hok
      simp only [Ty.Repr] at h
      by_cases hb : (s.isBool && lp) = true
      · rw [if_pos hb] at h
        simp only [Bool.and_eq_true] at hb
        obtain ⟨y, _, hx⟩ := h
        have hf := Sc.wf_facts hok.1
        refine ⟨fun _ _ => ?_, ?_⟩
        · rw [hx]
          have h2 : 1 < 2 ^ s.width := Nat.one_lt_two_pow (by omega)
          split
          · simp
          · rw [BitVec.toNat_ofNat, Nat.mod_eq_of_lt h2]; exact Nat.le_refl _
        · show s.InRange n v
          rw [hx]; exact InRange_bool01 hok.1 hb.1 _
      · rw [if_neg hb] at h
        refine ⟨fun hb1 hb2 => ?_, h.1⟩
        simp only [Bool.false_or] at hb2
        simp [hb1, hb2] at hb
    | .str, arr, lp, big, start, n, (v : List Byte), ws => by
      intro _ _ h; exact ⟨trivial, h.1⟩
    | .bytes, arr, lp, big, start, n, (v : List Byte), ws => by
      intro _ _ h
      obtain ⟨bs, h1, h2, _⟩ := h
      refine ⟨?_, trivial⟩
      have hlt := leb_lt _ _ h1
      have h64 : 2 ^ (7 * bs.length) ≤ 2 ^ 63 := Nat.pow_le_pow_right (by omega) (by omega)
      show v.length ≤ maxInt
      simp only [maxInt]; omega
    | .struct fs, arr, lp, big, start, n, v, ws => by
      intro hwf _ h
      simp only [Ty.wf, Bool.and_eq_true] at hwf
      exact Fields.Repr_ok c fs 0 v ws hwf.1 h
  theorem Fields.Repr_ok (c : Cfg) : ∀ (fs : Fields) (start : Nat) (v : fs.Val) (ws : List (Option Bool)),
      fs.wf start = true → fs.Repr c v ws → fs.Valid c false v ∧ fs.InRange v
    | .nil, start, v, ws => by intro _ _; exact ⟨trivial, trivial⟩
    | .void n r, start, v, ws => by
      intro hw h
      obtain ⟨ws', h1, _⟩ := h
      simp only [Fields.wf] at hw
      exact Fields.Repr_ok c r (start + n) v ws' hw h1
    | .const p n big val r, start, v, ws => by
      intro hw h
      obtain ⟨ws', h1, _⟩ := h
      simp only [Fields.wf, Bool.and_eq_true] at hw
      exact Fields.Repr_ok c r (start + n) v ws' hw.2 h1
    | .one t bits big r, start, v, ws => by
      intro hw h
      obtain ⟨h1, h2, h3, _, _⟩ := wf_one hw
      obtain ⟨v1, v2⟩ := v
      obtain ⟨w1, w2, a1, a2, _⟩ := h
      obtain ⟨b1, b2⟩ := Ty.Repr_ok c t false false big start _ v1 w1 h1 h3 a1
      obtain ⟨b3, b4⟩ := Fields.Repr_ok c r _ v2 w2 h2 a2
      exact ⟨⟨b1, b3⟩, ⟨b2, b4⟩⟩
    | .arr t len bits big r, start, v, ws => by
      intro hw h
      obtain ⟨h0, h1, h2, h3, _⟩ := wf_arr hw
      obtain ⟨v1, v2⟩ := v
      obtain ⟨wss, w2, hl, a1, a2, a3⟩ := h
      simp only at hl a1 a2
      have hall : ∀ x ∈ v1, t.Valid c false (c.useLoop len) x ∧ t.InRange (bits.getD 0 / len) x := by
        intro x hx
        have hrec := fun w => Ty.Repr_ok c t true (c.useLoop len) big (start + 0 * (bits.getD 0 / len)) (bits.getD 0 / len) x w h1 (h3 0)
        clear hw hl a3
        induction a1 with
        | nil => cases hx
        | cons hr _ ih =>
          rcases List.mem_cons.mp hx with e | e
          · subst e; exact hrec _ hr
          · exact ih e
      obtain ⟨b3, b4⟩ := Fields.Repr_ok c r _ v2 w2 h2 a2
      exact ⟨⟨hl, fun x hx => (hall x hx).1, b3⟩, ⟨fun x hx => (hall x hx).2, b4⟩⟩
end

mutual
  /-- The wire form of a legal, in-range value represents it. -/
  theorem Ty.wire_repr (c : Cfg) : ∀ (t : Ty) (arr lp big : Bool) (start n : Nat) (v : t.Val),
      t.wf = true → t.elemOk arr start n → t.Valid c false lp v → t.InRange n v → t.Repr c lp n big v (t.wire n big v)
    | .sc s, arr, lp, big, start, n, (v : BitVec s.width) => by
      intro _ hok hv hr
      simp only [Ty.elemOk] at hok
      have hf := Sc.wf_facts hok.1
      simp only [Ty.Repr, Ty.wire]
      by_cases hb : (s.isBool && lp) = true
      · rw [if_pos hb]
        simp only [Bool.and_eq_true] at hb
        have hx : v.toNat ≤ 1 := hv hb.1 (by simp [hb.2])
        refine ⟨v.setWidth n, scWire_congr (fun k hk => by simp [hk]), ?_⟩
        have hn : 1 < 2 ^ n := Nat.one_lt_two_pow (by omega)
        have hw : 1 < 2 ^ s.width := Nat.one_lt_two_pow (by omega)
        have hz : v.setWidth n = 0#n ↔ v.toNat = 0 := by
          constructor
          · intro e
            have := congrArg BitVec.toNat e
            rw [BitVec.toNat_setWidth, Nat.mod_eq_of_lt (by omega)] at this
            simpa using this
          · intro e
            apply BitVec.eq_of_toNat_eq
            rw [BitVec.toNat_setWidth, e]; simp
        apply BitVec.eq_of_toNat_eq
        by_cases c0 : v.toNat = 0
        · rw [if_pos (hz.mpr c0), c0]; simp
        · rw [if_neg (fun e => c0 (hz.mp e)), BitVec.toNat_ofNat, Nat.mod_eq_of_lt hw]; omega
      · rw [if_neg hb]; exact ⟨hr, trivial⟩
    | .str, arr, lp, big, start, n, (v : List Byte) => by
      intro _ _ _ hr; exact ⟨hr, rfl⟩
    | .bytes, arr, lp, big, start, n, (v : List Byte) => by
      intro _ _ hv _
      exact ⟨varint v.length, leb_varint _, varint_le9 hv, rfl⟩
    | .struct fs, arr, lp, big, start, n, v => by
      intro hwf _ hv hr
      simp only [Ty.wf, Bool.and_eq_true] at hwf
      exact Fields.wire_repr c fs 0 v hwf.1 hv hr
  theorem Fields.wire_repr (c : Cfg) : ∀ (fs : Fields) (start : Nat) (v : fs.Val),
      fs.wf start = true → fs.Valid c false v → fs.InRange v → fs.Repr c v (fs.wire v)
    | .nil, start, v => by intro _ _ _; rfl
    | .void n r, start, v => by
      intro hw hv hr
      simp only [Fields.wf] at hw
      exact ⟨r.wire v, Fields.wire_repr c r (start + n) v hw hv hr, rfl⟩
    | .const p n big val r, start, v => by
      intro hw hv hr
      simp only [Fields.wf, Bool.and_eq_true] at hw
      exact ⟨r.wire v, Fields.wire_repr c r (start + n) v hw.2 hv hr, rfl⟩
    | .one t bits big r, start, v => by
      intro hw hv hr
      obtain ⟨h1, h2, h3, _, _⟩ := wf_one hw
      obtain ⟨v1, v2⟩ := v
      obtain ⟨hv1, hv2⟩ := hv
      obtain ⟨hr1, hr2⟩ := hr
      exact ⟨_, _, Ty.wire_repr c t false false big start _ v1 h1 h3 hv1 hr1, Fields.wire_repr c r _ v2 h2 hv2 hr2, rfl⟩
    | .arr t len bits big r, start, v => by
      intro hw hv hr
      obtain ⟨h0, h1, h2, h3, _⟩ := wf_arr hw
      obtain ⟨v1, v2⟩ := v
      obtain ⟨hl, hv1, hv2⟩ := hv
      obtain ⟨hr1, hr2⟩ := hr
      simp only at hl hv1 hr1 hv2 hr2
      refine ⟨v1.map (fun x => t.wire (bits.getD 0 / len) big x), _, hl, ?_, Fields.wire_repr c r _ v2 h2 hv2 hr2, rfl⟩
      have hrec := fun x => Ty.wire_repr c t true (c.useLoop len) big (start + 0 * (bits.getD 0 / len)) (bits.getD 0 / len) x h1 (h3 0)
      simp only
      clear hw hl
      induction v1 with
      | nil => exact All2.nil
      | cons x xs ih =>
        refine All2.cons (hrec x (hv1 x (by simp)) (hr1 x (by simp))) (ih ?_ ?_)
        · intro y hy; exact hv1 y (by simp [hy])
        · intro y hy; exact hr1 y (by simp [hy])
end

/-! ### Lengths of static representations -/

mutual
  theorem Ty.Repr_length (c : Cfg) : ∀ (t : Ty) (arr lp big : Bool) (start n : Nat) (v : t.Val) (ws : List (Option Bool)),
      t.wf = true → t.elemOk arr start n → t.dynamic = false → t.Repr c lp n big v ws → ws.length = t.fixed n
    | .sc s, arr, lp, big, start, n, (v : BitVec s.width), ws => by
      intro _ _ _ h
      simp only [Ty.Repr] at h
      simp only [Ty.fixed]
      split at h
      · obtain ⟨y, e, _⟩ := h; rw [e, scWire_length]
      · rw [h.2, scWire_length]
    | .str, arr, lp, big, start, n, v, ws => by intro _ _ h; simp [Ty.dynamic] at h
    | .bytes, arr, lp, big, start, n, v, ws => by intro _ _ h; simp [Ty.dynamic] at h
    | .struct fs, arr, lp, big, start, n, v, ws => by
      intro hwf _ hd h
      simp only [Ty.wf, Bool.and_eq_true] at hwf
      simp only [Ty.dynamic] at hd
      simp only [Ty.fixed, hd, Bool.false_eq_true, if_false]
      exact Fields.Repr_length c fs 0 v ws hwf.1 hd h
  theorem Fields.Repr_length (c : Cfg) : ∀ (fs : Fields) (start : Nat) (v : fs.Val) (ws : List (Option Bool)),
      fs.wf start = true → fs.dynamic = false → fs.Repr c v ws → ws.length = fs.sum
    | .nil, start, v, ws => by
      intro _ _ h
      simp only [Fields.Repr] at h
      subst h; rfl
    | .void n r, start, v, ws => by
      intro hw hd h
      obtain ⟨ws', h1, h2⟩ := h
      simp only [Fields.wf, Fields.dynamic] at hw hd
      have := Fields.Repr_length c r (start + n) v ws' hw hd h1
      rw [h2]; simp [Fields.sum, this]
    | .const p n big val r, start, v, ws => by
      intro hw hd h
      obtain ⟨ws', h1, h2⟩ := h
      simp only [Fields.wf, Fields.dynamic, Bool.and_eq_true] at hw hd
      have := Fields.Repr_length c r (start + n) v ws' hw.2 hd h1
      rw [h2]; simp [Fields.sum, this]
    | .one t bits big r, start, v, ws => by
      intro hw hd h
      obtain ⟨h1, h2, h3, h4, _⟩ := wf_one hw
      simp only [Fields.dynamic, Bool.or_eq_false_iff] at hd
      obtain ⟨v1, v2⟩ := v
      obtain ⟨w1, w2, a1, a2, a3⟩ := h
      have b1 := Ty.Repr_length c t false false big start _ v1 w1 h1 h3 hd.1 a1
      have b2 := Fields.Repr_length c r _ v2 w2 h2 hd.2 a2
      simp only [hd.1, Bool.false_eq_true, if_false, List.append_nil] at a3 h4
      rw [a3, List.length_append]; simp only [Fields.sum]; omega
    | .arr t len bits big r, start, v, ws => by
      intro hw hd h
      obtain ⟨h0, h1, h2, h3, h4, h5, _⟩ := wf_arr hw
      simp only [Fields.dynamic, Bool.or_eq_false_iff] at hd
      obtain ⟨v1, v2⟩ := v
      obtain ⟨wss, w2, hl, a1, a2, a3⟩ := h
      simp only at hl a1 a2
      have b2 := Fields.Repr_length c r _ v2 w2 h2 hd.2 a2
      have hrec := fun x w => Ty.Repr_length c t true (c.useLoop len) big (start + 0 * (bits.getD 0 / len)) (bits.getD 0 / len) x w h1 (h3 0) hd.1
      have : wss.flatten.length = v1.length * (bits.getD 0 / len) := by
        clear hw hl a3
        induction a1 with
        | nil => simp
        | cons hx _ ih =>
          rw [List.flatten_cons, List.length_append, hrec _ _ hx, ih, h4, List.length_cons, Nat.add_mul, Nat.one_mul]
          omega
      rw [a3, List.length_append, this, hl, h5, b2]; rfl
end

end Bubbler
