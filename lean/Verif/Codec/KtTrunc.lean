import Verif.Codec.TruncLeaf
import Verif.Codec.KtTop

/-
Truncated messages in Kotlin (proofs for C59): `decodeSize` is that of the other targets, with other statements for strings and
bytes.
-/
set_option linter.unusedSimpArgs false
namespace Bubbler

theorem w32_w32 (x : Int) : w32 (w32 x) = w32 x := by unfold w32; omega

/-- The part of a target `decodeSize` uses, as Kotlin has it; the rest does nothing. -/
def ktScan : Tgt where
  SVal := fun _ => Unit
  Str := Unit
  loop := fun _ => false
  loopBase := fun b => b
  checks := true
  wrap := w32
  ret := w32
  rem := fun n b => w32 (n - b)
  alloc := fun _ => true
  sub := fun _ _ _ => true
  strSize := fun _ => 0
  lenSize := fun _ => 0
  encSc := fun _ _ _ _ _ _ _ _ _ => none
  encScLoop := fun _ _ _ _ _ _ _ => none
  encConst := fun _ _ _ _ _ _ _ => none
  encStr := fun _ _ _ => none
  encBytes := fun _ _ _ => none
  dsStr := ktDsString
  dsBytes := ktDsBytes
  decSc := fun _ _ _ _ _ _ _ _ => none
  decScLoop := fun _ _ _ _ _ _ => none
  decConst := fun _ _ _ _ _ _ _ => none
  decStr := fun _ _ => .fail
  decBytes := fun _ _ => .fail

def ktScanSpec : TgtDecSpec ktScan where
  maxLen := 2 ^ 30
  toSc := fun _ _ _ => ()
  toStr := fun _ => ()
  fitSc := fun _ _ _ _ _ => True
  fitStr := fun _ => True
  fitLen := fun bs m n => m % 2 ^ 32 = n ∧ bs.length ≤ 5
  constOk := fun _ _ _ _ => true
  loopAny := true
  sameLoop := false

theorem ktDsSub_eq {f g : Int → Option Int} (h : ∀ b, f b = g b) (k n : Nat) (base off : Int) :
    ktDsSub f k base off = tDsSub ktScan g k n base off := by
  unfold ktDsSub tDsSub
  rw [if_pos (show ktScan.sub n base (ktScan.wrap (off + k)) = true from rfl), h]
  show (match g (w32 (base + off + k)) with | none => _ | some _ => _) = match g (w32 (off + base + k)) with | none => _ | some _ => _
  rw [Int.add_comm off base]
  rfl

theorem ktDsFinish_eq (d : Buf) (base : Int) (fixed : Nat) (r : ScanX) : ktDsFinish d base fixed r = tDsFinish ktScan d base fixed r := by
  cases r with
  | panic => rfl
  | ret r => rfl
  | ok off =>
    show (if w32 (d.length - base) < w32 (off + fixed) then _ else some (w32 (off + fixed))) =
      if w32 (d.length - base) < w32 (off + fixed) then _ else some (w32 (w32 (off + fixed)))
    rw [w32_w32]
    rfl

theorem iterX_congr {f g : Int → ScanX} (h : ∀ o, f o = g o) : ∀ (n : Nat) (o : Int), iterX f n o = iterX g n o := by
  have : f = g := funext h
  intro n o
  rw [this]

mutual
  theorem Ty.ktDsElem_eq : ∀ (t : Ty) (k : Nat) (d : Buf) (base off : Int), t.wf = true → t.noDirectDyn = true →
      t.ktDsElem k d base off = t.tDsElem ktScan k d base off
    | .sc _, k, d, base, off => fun _ _ => rfl
    | .str, k, d, base, off => fun _ _ => rfl
    | .bytes, k, d, base, off => fun _ _ => rfl
    | .struct fs, k, d, base, off => by
      intro hw hn
      simp only [Ty.wf, Bool.and_eq_true] at hw
      simp only [Ty.ktDsElem, Ty.tDsElem]
      by_cases c : fs.dynamic = true
      · rw [if_pos c, if_pos c]
        apply ktDsSub_eq
        intro b
        rw [ktDsFinish_eq, Fields.ktDsFields_eq fs 0 d b 0 hw.1 (by simpa [Ty.noDirectDyn] using hn)]
      · rw [if_neg c, if_neg c]
  theorem Fields.ktDsFields_eq : ∀ (fs : Fields) (start : Nat) (d : Buf) (base off : Int), fs.wf start = true → fs.noDirectDyn = true →
      fs.ktDsFields start d base off = fs.tDsFields ktScan start d base off
    | .nil, start, d, base, off => fun _ _ => rfl
    | .void n r, start, d, base, off => by
      intro hw hn
      simp only [Fields.ktDsFields, Fields.tDsFields]
      exact Fields.ktDsFields_eq r _ d base off (by simpa [Fields.wf] using hw) (by simpa [Fields.noDirectDyn] using hn)
    | .const p n big val r, start, d, base, off => by
      intro hw hn
      simp only [Fields.wf, Bool.and_eq_true, decide_eq_true_eq] at hw
      simp only [Fields.ktDsFields, Fields.tDsFields]
      exact Fields.ktDsFields_eq r _ d base off hw.2 (by simpa [Fields.noDirectDyn] using hn)
    | .one t bits big r, start, d, base, off => by
      intro hw hn
      obtain ⟨n1, n2, n3⟩ := noDirectDyn_bits hw hn
      obtain ⟨h1, h2, h3, h4, h5⟩ := wf_one hw
      have hr := fun off => Fields.ktDsFields_eq r (start + bits.getD 0) d base off h2 n2
      have ht := Ty.ktDsElem_eq t (start / 8) d base off h1 n1
      simp only [Fields.ktDsFields, Fields.tDsFields, n3, ht, hr]
      cases bits with
      | none => rfl
      | some n => rw [← n3]; rfl
    | .arr t len bits big r, start, d, base, off => by
      intro hw hn
      obtain ⟨h0, h1, h2, h3, h4, h5, h7, h6⟩ := wf_arr hw
      simp only [Fields.noDirectDyn, Bool.and_eq_true] at hn
      have hbn : bits.isNone = t.dynamic := by
        cases ht : t.dynamic
        · cases hb : bits with
          | none => rw [h7.mp hb] at ht; cases ht
          | some n => rfl
        · rw [h7.mpr ht]; rfl
      have hr := fun off => Fields.ktDsFields_eq r (start + bits.getD 0) d base off h2 hn.2
      have ht := iterX_congr (fun off => Ty.ktDsElem_eq t (start / 8) d base off h1 hn.1) len off
      simp only [Fields.ktDsFields, Fields.tDsFields, hbn, ht, hr]
      cases bits with
      | none => rfl
      | some n => rw [← hbn]; rfl
end

theorem Fields.ktDecodeSize_eq {fs : Fields} (hacc : fs.accepted = true) (hn : fs.noDirectDyn = true) (d : Buf) (base : Int) :
    fs.ktDecodeSize d base = fs.tDecodeSize ktScan d base := by
  unfold Fields.ktDecodeSize Fields.tDecodeSize
  rw [ktDsFinish_eq, Fields.ktDsFields_eq fs 0 d base 0 (Fields.accepted_facts hacc).1 hn]
  rfl

/-! ### Strings and bytes -/

theorem ktScanSpec_scan : ktScanSpec.ScanOk where
  wrap := fun x h0 h1 => w32_id (by omega) (by have h1 : x ≤ ((2 ^ 30 : Nat) : Int) := h1; omega)
  ret := fun x h0 h1 => w32_id (by have h0 : -((2 ^ 30 : Nat) : Int) ≤ x := h0; omega) (by have h1 : x ≤ ((2 ^ 30 : Nat) : Int) := h1; omega)
  dsStr := by
    intro s base off k d hz hd ha
    have hd : d.length < 2 ^ 30 := hd
    have e := ktDsString_of (k := k) (base := base) (off := off) (NulAt.of_agrees ha hz).1 hd
    rw [show ktScan.dsStr = ktDsString from rfl]
    exact e
  dsBytes := by
    intro bs m s base off k d hl hf hd ha
    have hd : d.length < 2 ^ 30 := hd
    have hf : m % 2 ^ 32 = s.length ∧ bs.length ≤ 5 := hf
    obtain ⟨h1, h2⟩ := hf
    have hle := ha.1
    rw [byteWire_length, List.length_append] at hle
    have := ktDsBytes_short (k := k) (base := base) (off := off) hd (LebAt.of_agrees hl ha).1 h2 (by omega)
    rw [h1, Nat.add_assoc] at this
    rw [show ktScan.dsBytes = ktDsBytes from rfl]
    exact this

theorem ktScanStr_short {d : Buf} {base : Nat} (hd : d.length < 2 ^ 30) (hb : base < 2 ^ 30) : ∀ (m q : Nat), q + m + 1 = d.length →
    (∀ i, q ≤ i → i < d.length → d.rd i ≠ some 0#8) → ktScanStr d base q = some (.inl (-((d.length : Int) + 1 - base)))
  | 0, q => by
    intro e h
    rw [ktScanStr]
    cases hr : d.rd q with
    | none => simp only [Buf.rd] at hr; rw [List.getElem?_eq_none_iff] at hr; omega
    | some b =>
      simp only
      have hb0 : b ≠ 0#8 := fun e => h q (Nat.le_refl _) (by omega) (by rw [hr, e])
      rw [if_neg hb0, if_pos (by omega), w32_id (x := ((q + 1 + 1 : Nat) : Int) - base) (by omega) (by omega), w32_id (by omega) (by omega)]
      congr 2
      omega
  | m + 1, q => by
    intro e h
    rw [ktScanStr]
    cases hr : d.rd q with
    | none => simp only [Buf.rd] at hr; rw [List.getElem?_eq_none_iff] at hr; omega
    | some b =>
      simp only
      have hb0 : b ≠ 0#8 := fun e => h q (Nat.le_refl _) (by omega) (by rw [hr, e])
      rw [if_neg hb0, if_neg (by omega)]
      exact ktScanStr_short hd hb m (q + 1) (by omega) (fun i hi => h i (by omega))

theorem ktScanLen_cut {d : Buf} {base k : Nat} (hd : d.length < 2 ^ 30) (hb : base < 2 ^ 30) : ∀ (m shift off : Nat) (x : BitVec 32),
    (∀ i, base + off + k + i < d.length → ∃ b, d.rd (base + off + k + i) = some b ∧ b &&& 0x80#8 ≠ 0#8) →
    base + off + k + m = d.length → shift + 7 * m ≤ 28 →
      ktScanLen k d base x shift off = some (.inl (-((d.length : Int) + 1 - base)))
  | 0, shift, off, x => by
    intro h e hs
    have hw : w32 ((base : Int) + off + k) = ((base + off + k : Nat) : Int) := by
      rw [w32_id (by omega) (by omega)]; omega
    rw [ktScanLen]
    simp only [hw]
    rw [if_pos (by omega), w32_id (x := ((base + off + k : Nat) : Int) + 1 - base) (by omega) (by omega), w32_id (by omega) (by omega),
      show ((base + off + k : Nat) : Int) = (d.length : Int) by omega]
  | m + 1, shift, off, x => by
    intro h e hs
    have hw : w32 ((base : Int) + off + k) = ((base + off + k : Nat) : Int) := by
      rw [w32_id (by omega) (by omega)]; omega
    have hw2 : w32 ((off : Int) + 1) = ((off + 1 : Nat) : Int) := by
      rw [w32_id (by omega) (by omega)]; omega
    obtain ⟨b, h1, h2⟩ := h 0 (by omega)
    have hrd : ktRd d ((base + off + k : Nat) : Int) = some b := by
      unfold ktRd; rw [if_neg (Int.not_lt.mpr (Int.natCast_nonneg _)), Int.toNat_natCast]; exact h1
    rw [ktScanLen]
    simp only [hw, hw2]
    rw [if_neg (by omega), hrd]
    simp only
    rw [if_neg h2, dif_neg (by omega)]
    exact ktScanLen_cut hd hb m (shift + 7) (off + 1) _ (fun i hi => by
      have := h (i + 1) (by omega)
      rw [show base + (off + 1) + k + i = base + off + k + (i + 1) by omega]
      exact this) (by omega) (by omega)

theorem ktTruncOk : ktScanSpec.TruncOk where
  checks := rfl
  sub := fun _ _ _ => rfl
  rem := fun n b hn hb => w32_id (by have hb : b < 2 ^ 30 := hb; omega) (by have hn : n < 2 ^ 30 := hn; omega)
  str := by
    intro s base off k d hz hm hc hs
    have hm : base + off + k + (s.length + 1) < 2 ^ 30 := hm
    have hw : w32 ((base : Int) + off + k) = ((base + off + k : Nat) : Int) := by
      rw [w32_id (by omega) (by omega)]; omega
    rw [show ktScan.dsStr = ktDsString from rfl]
    unfold ktDsString
    simp only [hw]
    by_cases hp : (d.length : Int) ≤ ((base + off + k : Nat) : Int)
    · rw [if_pos hp, w32_id (x := ((base + off + k : Nat) : Int) + 1 - base) (by omega) (by omega), w32_id (by omega) (by omega)]
      exact ⟨_, rfl, by unfold Short; omega⟩
    · rw [if_neg hp, if_neg (by omega), Int.toNat_natCast,
        ktScanStr_short (by omega) (by omega) (d.length - (base + off + k) - 1) _ (by omega) (fun i hi hi2 => ?_)]
      · exact ⟨_, rfl, by unfold Short; omega⟩
      · rw [show i = base + off + k + (i - (base + off + k)) by omega, cut_rd hc (by omega), List.getElem?_append_left (by omega)]
        intro e
        exact hz (List.mem_of_getElem? e)
  bytes := by
    intro bs m s base off k d hlb hf hm hc hs
    have hm : base + off + k + (bs.length + s.length) < 2 ^ 30 := hm
    have hf : m % 2 ^ 32 = s.length ∧ bs.length ≤ 5 := hf
    obtain ⟨h5, h6⟩ := hf
    have hne := leb_ne_nil hlb
    have hw : w32 ((base : Int) + off + k) = ((base + off + k : Nat) : Int) := by
      rw [w32_id (by omega) (by omega)]; omega
    rw [show ktScan.dsBytes = ktDsBytes from rfl]
    unfold ktDsBytes
    simp only [hw]
    by_cases hp : (d.length : Int) ≤ ((base + off + k : Nat) : Int)
    · rw [if_pos hp, w32_id (x := ((base + off + k : Nat) : Int) + 1 - base) (by omega) (by omega), w32_id (by omega) (by omega)]
      exact ⟨_, rfl, by unfold Short; omega⟩
    · rw [if_neg hp]
      rcases Nat.lt_or_ge d.length (base + off + k + bs.length) with hb | hb
      · rw [ktScanLen_cut (by omega) (by omega) (d.length - (base + off + k)) 0 off _ (fun i hi => ?_) (by omega) (by omega)]
        · exact ⟨_, rfl, by unfold Short; omega⟩
        · obtain ⟨b, e1, e2⟩ := leb_high bs _ i hlb (by omega)
          exact ⟨b, by rw [cut_rd hc hi, List.getElem?_append_left (by omega)]; exact e1, e2⟩
      · have hl : LebAt d (base + off + k) bs m := by
          refine ⟨hlb, ?_, by omega⟩
          rw [hc, List.take_take, Nat.min_eq_left (by omega), List.take_left]
        have hx := ktScanLen_of d base k (by omega) bs m 0 0 off hl (by simp) (by omega) (by omega)
        rw [if_pos (by omega)] at hx
        simp only [Nat.zero_add, Nat.pow_zero, Nat.mul_one] at hx
        have hi : (BitVec.ofNat 32 m).toInt = ((s.length : Nat) : Int) := by
          rw [BitVec.toInt_eq_toNat_of_lt (by rw [BitVec.toNat_ofNat]; omega), BitVec.toNat_ofNat, h5]
        rw [hx]
        simp only [hi]
        rw [w32_id (x := (d.length : Int) - base) (by omega) (by omega),
          w32_id (x := ((off + bs.length : Nat) : Int) + k + (s.length : Nat)) (by omega) (by omega), if_pos (by omega), w32_id (by omega) (by omega)]
        exact ⟨_, rfl, by unfold Short; omega⟩

theorem ktScanSpec_len : ktScanSpec.LenOk := by
  intro bs n h hl hn
  have hn : n < 2 ^ 30 := hn
  have := varint_length_le (n := n) 5 (by omega) (by omega)
  exact ⟨Nat.mod_eq_of_lt (by omega), by omega⟩

/-- What Go encodes, cut off anywhere, in Kotlin -/
theorem Fields.kt_truncated (cg : Cfg) {fs : Fields} (hacc : fs.accepted = true) (hn : fs.noDirectDyn = true)
    (v : fs.Val) (hv : fs.Valid cg false v) (hr : fs.InRange v) (pre : Buf) (hsz : pre.length + fs.encodeSize v < 2 ^ 30)
    {d : Buf} (he : fs.encode cg v = some d) (k : Nat) (hk : k < d.length) (c : KtCfg) :
    fs.ktDecode c (pre ++ d.take k) pre.length = .fail ∧
    ∃ need : Nat, fs.ktDecodeSize (pre ++ d.take k) pre.length = some (-(need : Int)) ∧ k < need ∧ need ≤ d.length := by
  obtain ⟨need, h1, h2, h3⟩ := Fields.t_truncated_go ktScanSpec_len (fun _ _ _ _ _ => trivial) (fun _ => trivial) rfl ktScanSpec_scan ktTruncOk cg hacc hn
    v hv hr pre hsz he k hk
  rw [← Fields.ktDecodeSize_eq hacc hn] at h1
  refine ⟨?_, need, h1, h2, h3⟩
  unfold Fields.ktDecode
  rw [h1]
  simp only
  rw [if_pos (by omega)]

end Bubbler
