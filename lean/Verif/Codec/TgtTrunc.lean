import Verif.Codec.TgtSound

/-
Truncated messages: decodeSize of a strict prefix of a message asks for more bytes (proofs for C59).
-/
set_option linter.unusedSimpArgs false
namespace Bubbler

/-- A request for more than there is, but not for more than `N` bytes in all -/
def Short (d : Buf) (base N : Nat) (r : Int) : Prop := r < 0 ∧ (d.length : Int) - base < -r ∧ -r ≤ N

/-- What `decode_size` does on messages that are there. -/
structure TgtDecSpec.ScanOk {T : Tgt} (S : TgtDecSpec T) : Prop where
  wrap : ∀ x : Int, 0 ≤ x → x ≤ (S.maxLen : Int) → T.wrap x = x
  ret : ∀ x : Int, -(S.maxLen : Int) ≤ x → x ≤ (S.maxLen : Int) → T.ret x = x
  dsStr : ∀ s (base off k : Nat) d, 0#8 ∉ s → d.length < S.maxLen →
    Agrees d (8 * (base + off + k)) (byteWire (s ++ [0#8])) → T.dsStr k d base off = .ok ((off + (s.length + 1) : Nat) : Int)
  dsBytes : ∀ bs m s (base off k : Nat) d, leb bs = some m → S.fitLen bs m s.length → d.length < S.maxLen →
    Agrees d (8 * (base + off + k)) (byteWire (bs ++ s)) →
    T.dsBytes k d base off = .ok ((off + (bs.length + s.length) : Nat) : Int)

theorem TgtDecSpec.DecOk.scan {T : Tgt} {S : TgtDecSpec T} (E : S.DecOk) : S.lax.ScanOk :=
  ⟨E.wrap, E.ret, E.dsStr, E.dsBytes⟩

/-- What is needed of a target for truncated messages. -/
structure TgtDecSpec.TruncOk {T : Tgt} (S : TgtDecSpec T) : Prop where
  checks : T.checks = true
  sub : ∀ n base rel : Nat, T.sub n base rel = true
  rem : ∀ n b : Nat, n < S.maxLen → b < S.maxLen → T.rem n b = (n : Int) - b
  str : ∀ s (base off k : Nat) (d : Buf), 0#8 ∉ s → base + off + k + (s.length + 1) < S.maxLen →
    d.drop (base + off + k) = (s ++ [0#8]).take (d.length - (base + off + k)) → d.length < base + off + k + (s.length + 1) →
    ∃ r, T.dsStr k d base off = .ret r ∧ Short d base (off + k + (s.length + 1)) r
  bytes : ∀ bs m s (base off k : Nat) (d : Buf), leb bs = some m → S.fitLen bs m s.length → base + off + k + (bs.length + s.length) < S.maxLen →
    d.drop (base + off + k) = (bs ++ s).take (d.length - (base + off + k)) → d.length < base + off + k + (bs.length + s.length) →
    ∃ r, T.dsBytes k d base off = .ret r ∧ Short d base (off + k + (bs.length + s.length)) r

theorem TgtDecSpec.TruncOk.lax {T : Tgt} {S : TgtDecSpec T} (K : S.TruncOk) : S.lax.TruncOk :=
  ⟨K.checks, K.sub, K.rem, K.str, K.bytes⟩

/-- What is left of bytes that are cut off -/
theorem cut_bytes {d rest : Buf} {p : Nat} {x : List Byte} (h : Agrees (d ++ rest) (8 * p) (byteWire x)) (hs : d.length < p + x.length) :
    d.drop p = x.take (d.length - p) := by
  obtain ⟨h1, h2⟩ := h.bytes
  rw [← h1, List.take_take, Nat.min_eq_left (by omega)]
  rcases Nat.lt_or_ge d.length p with hp | hp
  · rw [List.drop_eq_nil_of_le (by omega), show d.length - p = 0 by omega, List.take_zero]
  · rw [List.drop_append_of_le_length hp, List.take_append_of_le_length (by rw [List.length_drop]; omega), List.take_of_length_le (by rw [List.length_drop]; omega)]

theorem bitAt_left {d rest : Buf} {i : Nat} (h : i < 8 * d.length) : bitAt (d ++ rest) i = bitAt d i := by
  unfold bitAt
  rw [List.getD_eq_getElem?_getD, List.getElem?_append_left (by omega), ← List.getD_eq_getElem?_getD]

theorem Agrees.of_prefix {d rest : Buf} {p : Nat} {ws : List (Option Bool)} (h : Agrees (d ++ rest) p ws) (hl : p + ws.length ≤ 8 * d.length) :
    Agrees d p ws := by
  refine ⟨by omega, fun j b hj => ?_⟩
  have hj' : j < ws.length := (List.getElem?_eq_some_iff.mp hj).1
  rw [← h.2 j b hj, bitAt_left (by omega)]

variable {T : Tgt} {S : TgtDecSpec T}

theorem tIter_trunc {α : Type} {R : α → List (Option Bool) → Prop} (f : Int → ScanX) (d full : Buf) (base start : Nat)
    {xs : List α} {wss : List (List (Option Bool))} (h : All2 R xs wss) :
    (∀ x w, R x w → ∀ off : Nat, Agrees full (8 * (base + off) + start) w →
      (∃ o : Nat, f off = .ok (o : Int) ∧ 8 * o = 8 * off + w.length ∧ off < o) ∨
      ∃ r, f off = .ret r ∧ Short d base (off + (start + w.length) / 8) r) →
    ∀ (off : Nat), Agrees full (8 * (base + off) + start) wss.flatten →
    (∃ o : Nat, iterX f xs.length off = .ok (o : Int) ∧ 8 * o = 8 * off + wss.flatten.length ∧ off ≤ o ∧ (0 < xs.length → off < o)) ∨
      ∃ r, iterX f xs.length off = .ret r ∧ Short d base (off + (start + wss.flatten.length) / 8) r := by
  intro hf
  induction h with
  | nil => intro off _; exact .inl ⟨off, rfl, by simp, Nat.le_refl _, by simp⟩
  | @cons x w xs wss hx _ ih =>
    intro off h
    simp only [List.flatten_cons] at h
    obtain ⟨h1, h2⟩ := Agrees.append.mp h
    rcases hf x w hx off h1 with ⟨o1, e1, l1, q1⟩ | ⟨r, e1, l1⟩
    · have hpos : 8 * (base + off) + start + w.length = 8 * (base + o1) + start := by omega
      rw [hpos] at h2
      rcases ih o1 h2 with ⟨o, e2, l2, q2, _⟩ | ⟨r, e2, l2⟩
      · refine .inl ⟨o, ?_, by simp only [List.flatten_cons, List.length_append]; omega, by omega, fun _ => by omega⟩
        simp only [List.length_cons, iterX, e1]; exact e2
      · refine .inr ⟨r, ?_, ?_⟩
        · simp only [List.length_cons, iterX, e1]; exact e2
        · unfold Short at *
          simp only [List.flatten_cons, List.length_append]
          omega
    · refine .inr ⟨r, ?_, ?_⟩
      · simp only [List.length_cons, iterX, e1]
      · unfold Short at *
        simp only [List.flatten_cons, List.length_append]
        omega

mutual
  theorem Ty.tDs_trunc (E : S.ScanOk) (K : S.TruncOk) (c : Cfg) : ∀ (t : Ty) (ctx : List Fields) (big arr tl gl : Bool) (v : t.Val)
      (ws : List (Option Bool)) (start n base : Nat) (d rest : Buf) (off : Nat),
      t.wf = true → t.elemOk arr start n → t.noDirectDyn = true → t.dynamic = true → (d ++ rest).length < S.maxLen →
      t.GRepr S c ctx tl gl n big v ws → Agrees (d ++ rest) (8 * (base + off) + start) ws →
      (∃ o : Nat, t.tDsElem T (start / 8) d base off = .ok (o : Int) ∧ 8 * o = 8 * off + ws.length ∧ off < o) ∨
      ∃ r, t.tDsElem T (start / 8) d base off = .ret r ∧ Short d base (off + (start + ws.length) / 8) r
    | .sc s, ctx, big, arr, tl, gl, v, ws, start, n, base, d, rest, off => by
      intro _ _ _ h; simp [Ty.dynamic] at h
    | .str, ctx, big, arr, tl, gl, (v : List Byte), ws, start, n, base, d, rest, off => by
      intro _ hok _ _ hd hr hag
      simp only [Ty.elemOk] at hok
      obtain ⟨hf, hnz, hws⟩ := hr
      have e : 8 * (base + off) + start = 8 * (base + off + start / 8) := by omega
      have hl : ws.length = 8 * (v.length + 1) := by rw [hws, byteWire_length]; simp
      rw [e, hws] at hag
      simp only [Ty.tDsElem]
      rcases Nat.lt_or_ge d.length (base + off + start / 8 + (v.length + 1)) with hs | hs
      · obtain ⟨r, h1, h2⟩ := K.str v base off (start / 8) d hnz (by have := hag.1; rw [byteWire_length, List.length_append (bs := [0#8]), List.length_singleton] at this; omega)
          (cut_bytes hag (by simpa using hs)) hs
        refine .inr ⟨r, h1, ?_⟩
        unfold Short at *; omega
      · rw [List.length_append] at hd
        refine .inl ⟨off + (v.length + 1), E.dsStr v base off (start / 8) d hnz (by omega) (hag.of_prefix ?_), by omega, by omega⟩
        rw [← hws]; omega
    | .bytes, ctx, big, arr, tl, gl, (v : List Byte), ws, start, n, base, d, rest, off => by
      intro _ hok _ _ hd hr hag
      simp only [Ty.elemOk] at hok
      obtain ⟨bs, m, hlb, hf, hws⟩ := hr
      have hbs : 0 < bs.length := by
        cases bs with
        | nil => simp [leb] at hlb
        | cons b bs => simp
      have e : 8 * (base + off) + start = 8 * (base + off + start / 8) := by omega
      have hl : ws.length = 8 * (bs.length + v.length) := by rw [hws, byteWire_length]; simp
      rw [e, hws] at hag
      simp only [Ty.tDsElem]
      rcases Nat.lt_or_ge d.length (base + off + start / 8 + (bs.length + v.length)) with hs | hs
      · obtain ⟨r, h1, h2⟩ := K.bytes bs m v base off (start / 8) d hlb hf (by have := hag.1; rw [byteWire_length, List.length_append (as := bs)] at this; omega)
          (cut_bytes hag (by simpa using hs)) hs
        refine .inr ⟨r, h1, ?_⟩
        unfold Short at *; omega
      · rw [List.length_append] at hd
        refine .inl ⟨off + (bs.length + v.length), E.dsBytes bs m v base off (start / 8) d hlb hf (by omega) (hag.of_prefix ?_), by omega, by omega⟩
        rw [← hws]; omega
    | .struct fs, ctx, big, arr, tl, gl, v, ws, start, n, base, d, rest, off => by
      intro hwf hok hnd hdyn hd hr hag
      simp only [Ty.elemOk] at hok
      simp only [Ty.wf, Bool.and_eq_true, decide_eq_true_eq] at hwf
      simp only [Ty.dynamic] at hdyn
      have hle := hag.1
      have hd' := hd
      rw [List.length_append] at hd' hle
      have hb : 8 * (base + off + start / 8) = 8 * (base + off) + start := by omega
      have ih := Fields.tDs_trunc E K c fs ctx v ws 0 (base + off + start / 8) d rest 0
        hwf.1 (by simpa [Ty.noDirectDyn] using hnd) hd hr (by
          rw [show ∀ a, 8 * (a + 0) + 0 = 8 * a from fun a => by omega, hb]; exact hag)
      simp only [Int.natCast_zero, Int.ofNat_zero] at ih
      have hw1 : T.wrap ((off : Int) + (start / 8 : Nat)) = ((off + start / 8 : Nat) : Int) := by
        rw [E.wrap _ (by omega) (by omega)]; omega
      have hw3 : T.wrap ((off : Int) + base + (start / 8 : Nat)) = ((base + off + start / 8 : Nat) : Int) := by
        rw [E.wrap _ (by omega) (by omega)]; omega
      simp only [Ty.tDsElem, hdyn, if_true, tDsSub, hw1, hw3]
      rw [if_pos (K.sub _ _ _)]
      have hsh : ∀ r : Int, Short d (base + off + start / 8) (ws.length / 8) r →
          Short d base (off + (start + ws.length) / 8) (T.ret (T.ret (-((off + start / 8 : Nat) : Int)) + r)) := by
        intro r hr
        unfold Short at *
        rw [E.ret (-((off + start / 8 : Nat) : Int)) (by omega) (by omega), E.ret _ (by omega) (by omega)]
        omega
      rcases ih with ⟨o, e1, l1, q1, q2⟩ | ⟨r, e1, l1⟩
      · have hw4 : T.wrap ((o : Int) + (fs.sum / 8 : Nat)) = ((o + fs.sum / 8 : Nat) : Int) := by
          rw [E.wrap _ (by omega) (by omega)]; omega
        simp only [e1, tDsFinish, hw4]
        rw [K.rem _ _ (by omega) (by omega)]
        by_cases hs : (d.length : Int) - ((base + off + start / 8 : Nat) : Int) < ((o + fs.sum / 8 : Nat) : Int)
        · rw [if_pos hs]
          simp only
          have hq := q2 hdyn
          rw [E.ret (-((o + fs.sum / 8 : Nat) : Int)) (by omega) (by omega), if_pos (by omega)]
          exact .inr ⟨_, rfl, hsh _ (by unfold Short; omega)⟩
        · rw [if_neg hs]
          simp only
          rw [E.ret ((o + fs.sum / 8 : Nat) : Int) (by omega) (by omega), if_neg (by omega), ← Int.natCast_add, E.wrap _ (by omega) (by omega)]
          have hq := q2 hdyn
          exact .inl ⟨_, rfl, by omega, by omega⟩
      · simp only [e1, tDsFinish]
        rw [if_pos l1.1]
        exact .inr ⟨_, rfl, hsh r (by simpa using l1)⟩
  theorem Fields.tDs_trunc (E : S.ScanOk) (K : S.TruncOk) (c : Cfg) : ∀ (fs : Fields) (ctx : List Fields) (v : fs.Val) (ws : List (Option Bool))
      (start base : Nat) (d rest : Buf) (off : Nat),
      fs.wf start = true → fs.noDirectDyn = true → (d ++ rest).length < S.maxLen →
      fs.GRepr S c ctx v ws → Agrees (d ++ rest) (8 * (base + off) + start) ws →
      (∃ o : Nat, fs.tDsFields T start d base off = .ok (o : Int) ∧ 8 * o + fs.sum = 8 * off + ws.length ∧ off ≤ o ∧
        (fs.dynamic = true → off < o)) ∨
      ∃ r, fs.tDsFields T start d base off = .ret r ∧ Short d base (off + (start + ws.length) / 8) r
    | .nil, ctx, v, ws, start, base, d, rest, off => by
      intro _ _ _ hr _
      simp only [Fields.GRepr] at hr
      exact .inl ⟨off, rfl, by simp [hr, Fields.sum], Nat.le_refl _, by simp [Fields.dynamic]⟩
    | .void n r, ctx, v, ws, start, base, d, rest, off => by
      intro hw hn hd hr h
      obtain ⟨ws', hr, hws⟩ := hr
      rw [hws] at h
      obtain ⟨h1, h2⟩ := Agrees.append.mp h
      rw [List.length_replicate, Nat.add_assoc] at h2
      have ih := Fields.tDs_trunc E K c r ctx v ws' (start + n) base d rest off (by simpa [Fields.wf] using hw)
        (by simpa [Fields.noDirectDyn] using hn) hd hr h2
      have hl : ws.length = n + ws'.length := by rw [hws]; simp
      simp only [Fields.tDsFields, Fields.sum, Fields.dynamic]
      rcases ih with ⟨o, e1, l1, q1, q2⟩ | ⟨x, e1, l1⟩
      · exact .inl ⟨o, e1, by omega, q1, q2⟩
      · exact .inr ⟨x, e1, by unfold Short at *; omega⟩
    | .const p n big val r, ctx, v, ws, start, base, d, rest, off => by
      intro hw hn hd hr h
      obtain ⟨ws', hr, hws⟩ := hr
      rw [hws] at h
      obtain ⟨h1, h2⟩ := Agrees.append.mp h
      rw [scWire_length, Nat.add_assoc] at h2
      simp only [Fields.wf, Bool.and_eq_true, decide_eq_true_eq] at hw
      have ih := Fields.tDs_trunc E K c r ctx v ws' (start + n) base d rest off hw.2
        (by simpa [Fields.noDirectDyn] using hn) hd hr h2
      have hl : ws.length = n + ws'.length := by rw [hws, List.length_append, scWire_length]
      simp only [Fields.tDsFields, Fields.sum, Fields.dynamic]
      rcases ih with ⟨o, e1, l1, q1, q2⟩ | ⟨x, e1, l1⟩
      · exact .inl ⟨o, e1, by omega, q1, q2⟩
      · exact .inr ⟨x, e1, by unfold Short at *; omega⟩
    | .one t bits big r, ctx, v, ws, start, base, d, rest, off => by
      intro hw hn hd hr h
      obtain ⟨n1, n2, n3⟩ := noDirectDyn_bits hw hn
      obtain ⟨h1, h2, h3, h4, h5⟩ := wf_one hw
      obtain ⟨v1, v2⟩ := v
      obtain ⟨w1, w2, hr1, hr2, hws⟩ := hr
      simp only at hr1 hr2
      have hb0 : t.dynamic = true → bits = none := by
        intro ht
        rw [ht] at n3
        simpa using n3
      have hgap : (if t.dynamic = true then List.replicate (bits.getD 0) none else ([] : List (Option Bool))) = [] := by
        cases ht : t.dynamic
        · simp
        · simp [hb0 ht]
      rw [hgap, List.append_nil] at hws
      have hl : ws.length = w1.length + w2.length := by rw [hws, List.length_append]
      rw [hws] at h
      obtain ⟨a1, a2⟩ := Agrees.append.mp h
      simp only [Fields.tDsFields, n3, Fields.sum, Fields.dynamic]
      by_cases ht : t.dynamic = true
      · have hb := hb0 ht
        subst hb
        rw [if_pos ht]
        simp only [Option.getD_none, Nat.add_zero, Nat.zero_add] at h2 h3 hr1 ⊢
        rcases Ty.tDs_trunc E K c t (.one t none big r :: ctx) big false false false v1 w1 start 0 base d rest off h1 h3 n1 ht hd hr1 a1 with
          ⟨o1, e1, l1, q1⟩ | ⟨x, e1, l1⟩
        · have hpos : 8 * (base + off) + start + w1.length = 8 * (base + o1) + start := by omega
          rw [hpos] at a2
          have ih := Fields.tDs_trunc E K c r ctx v2 w2 start base d rest o1 h2 n2 hd hr2 a2
          simp only [e1]
          rcases ih with ⟨o, e2, l2, q2, q3⟩ | ⟨x, e2, l2⟩
          · exact .inl ⟨o, e2, by omega, by omega, fun _ => by omega⟩
          · exact .inr ⟨x, e2, by unfold Short at *; omega⟩
        · simp only [e1]
          exact .inr ⟨x, rfl, by unfold Short at *; omega⟩
      · rw [if_neg ht]
        have hs := Ty.GRepr_length (S := S) c t _ false false false big start _ v1 w1 h1 h3 (by simpa using ht) hr1
        rw [if_neg ht] at h4
        have hpos : 8 * (base + off) + start + w1.length = 8 * (base + off) + (start + bits.getD 0) := by omega
        rw [hpos] at a2
        have ih := Fields.tDs_trunc E K c r ctx v2 w2 (start + bits.getD 0) base d rest off h2 n2 hd hr2 a2
        simp only [Bool.not_eq_true] at ht
        rw [ht, Bool.false_or]
        rcases ih with ⟨o, e2, l2, q2, q3⟩ | ⟨x, e2, l2⟩
        · exact .inl ⟨o, e2, by omega, by omega, q3⟩
        · exact .inr ⟨x, e2, by unfold Short at *; omega⟩
    | .arr t len bits big r, ctx, v, ws, start, base, d, rest, off => by
      intro hw hn hd hr h
      obtain ⟨h0, h1, h2, h3, h4, h5, h7, h6⟩ := wf_arr hw
      have hbn : bits.isNone = t.dynamic := by
        cases ht : t.dynamic
        · cases hb : bits with
          | none => rw [h7.mp hb] at ht; cases ht
          | some n => rfl
        · rw [h7.mpr ht]; rfl
      obtain ⟨v1, v2⟩ := v
      obtain ⟨wss, w2, hlen, hr1, hr2, hws⟩ := hr
      simp only at hlen hr1 hr2
      have hl : ws.length = wss.flatten.length + w2.length := by rw [hws, List.length_append]
      rw [hws] at h
      obtain ⟨a1, a2⟩ := Agrees.append.mp h
      simp only [Fields.noDirectDyn, Bool.and_eq_true] at hn
      simp only [Fields.tDsFields, hbn, Fields.sum, Fields.dynamic]
      by_cases ht : t.dynamic = true
      · have hb := h7.mpr ht
        subst hb
        rw [if_pos ht]
        simp only [Option.getD_none, Nat.add_zero, Nat.zero_add, Nat.zero_div, Nat.mul_zero] at h2 h3 hr1 ⊢
        have it := tIter_trunc (fun off => t.tDsElem T (start / 8) d base off) d (d ++ rest) base start hr1
          (fun x w hx off hag => Ty.tDs_trunc E K c t (.arr t len none big r :: ctx) big true (T.loop len) (c.useLoop len) x w start 0 base d rest off
            h1 (h3 0) hn.1 ht hd hx hag) off a1
        rw [hlen] at it
        rcases it with ⟨o1, e1, l1, q0, q1⟩ | ⟨x, e1, l1⟩
        · have hpos : 8 * (base + off) + start + wss.flatten.length = 8 * (base + o1) + start := by omega
          rw [hpos] at a2
          have ih := Fields.tDs_trunc E K c r ctx v2 w2 start base d rest o1 h2 hn.2 hd hr2 a2
          have hq := q1 h0
          simp only [e1]
          rcases ih with ⟨o, e2, l2, q2, q3⟩ | ⟨x, e2, l2⟩
          · exact .inl ⟨o, e2, by omega, by omega, fun _ => by omega⟩
          · exact .inr ⟨x, e2, by unfold Short at *; omega⟩
        · simp only [e1]
          exact .inr ⟨x, rfl, by unfold Short at *; omega⟩
      · rw [if_neg ht]
        have hs : wss.flatten.length = bits.getD 0 := by
          have hrec := fun x w => Ty.GRepr_length (S := S) c t (.arr t len bits big r :: ctx) true (T.loop len) (c.useLoop len) big
            (start + 0 * (bits.getD 0 / len)) (bits.getD 0 / len) x w h1 (h3 0) (by simpa using ht)
          have : wss.flatten.length = v1.length * (bits.getD 0 / len) := by
            clear hl hlen hws a1 a2 h
            induction hr1 with
            | nil => simp
            | cons hx _ ih =>
              rw [List.flatten_cons, List.length_append, hrec _ _ hx, ih, h4, List.length_cons, Nat.add_mul, Nat.one_mul]
              omega
          rw [this, hlen, h5]
        rw [hs, Nat.add_assoc] at a2
        have ih := Fields.tDs_trunc E K c r ctx v2 w2 (start + bits.getD 0) base d rest off h2 hn.2 hd hr2 a2
        simp only [Bool.not_eq_true] at ht
        rw [ht, Bool.false_or]
        rcases ih with ⟨o, e2, l2, q2, q3⟩ | ⟨x, e2, l2⟩
        · exact .inl ⟨o, e2, by omega, by omega, q3⟩
        · exact .inr ⟨x, e2, by unfold Short at *; omega⟩
end

/-- `decodeSize` of truncated data asks for more than there is, but not for more than the message has. -/
theorem Fields.t_truncated_size (E : S.ScanOk) (K : S.TruncOk) (c : Cfg) {fs : Fields} (hacc : fs.accepted = true) (hn : fs.noDirectDyn = true)
    {d rest : Buf} {base N : Nat} (hd : (d ++ rest).length < S.maxLen) {v : fs.Val} {ws : List (Option Bool)}
    (hr : fs.GRepr S c [] v ws) (ha : Agrees (d ++ rest) (8 * base) ws) (hN : 8 * N = ws.length) (hs : d.length < base + N) (hb : base ≤ d.length) :
    ∃ need : Nat, fs.tDecodeSize T d base = some (-(need : Int)) ∧ d.length < base + need ∧ need ≤ N := by
  obtain ⟨h1, h2, h3, h4⟩ := Fields.accepted_facts hacc
  have key : ∃ r, fs.tDecodeSize T d base = some r ∧ Short d base N r := by
    have it := Fields.tDs_trunc E K c fs [] v ws 0 base d rest 0 h1 hn hd hr (by simpa using ha)
    have hle := ha.1
    rw [List.length_append] at hd hle
    unfold Fields.tDecodeSize
    by_cases hdyn : fs.dynamic = true
    · rw [if_pos hdyn]
      rcases it with ⟨o, e1, l1, q1, q2⟩ | ⟨x, e1, l1⟩
      · simp only [Int.natCast_zero, Int.ofNat_zero] at e1
        have hw4 : T.wrap ((o : Int) + (fs.sum / 8 : Nat)) = ((o + fs.sum / 8 : Nat) : Int) := by
          rw [E.wrap _ (by omega) (by omega)]; omega
        have hq := q2 hdyn
        simp only [e1, tDsFinish, hw4]
        rw [K.rem _ _ (by omega) (by omega), if_pos (by omega), E.ret _ (by omega) (by omega)]
        exact ⟨_, rfl, by unfold Short; omega⟩
      · simp only [Int.natCast_zero, Int.ofNat_zero] at e1
        simp only [e1, tDsFinish]
        exact ⟨x, rfl, by unfold Short at *; omega⟩
    · rw [if_neg hdyn]
      have hl := Fields.GRepr_length c fs [] 0 v ws h1 (by simpa using hdyn) hr
      rw [K.rem _ _ (by omega) (by omega), if_pos (by omega)]
      exact ⟨_, rfl, by unfold Short; omega⟩
  obtain ⟨r, e, q1, q2, q3⟩ := key
  exact ⟨(-r).toNat, by rw [e]; congr 1; omega, by omega, by omega⟩

/-- … and `decode` refuses it. -/
theorem Fields.t_refuses (hc : T.checks = true) {fs : Fields} {d : Buf} {base need : Nat} (h : fs.tDecodeSize T d base = some (-(need : Int)))
    (hp : 0 < need) : fs.tDecode T d base = .fail := by
  unfold Fields.tDecode Fields.tCheck
  rw [hc, if_pos rfl, h]
  simp only
  rw [if_pos (by omega)]

mutual
  theorem Ty.DFits_all (h1 : ∀ ctx s tl n x, S.fitSc ctx s tl n x) (h2 : ∀ x, S.fitStr x) :
      ∀ (t : Ty) (ctx : List Fields) (tl : Bool) (n : Nat) (v : t.Val), t.DFits S ctx tl n v
    | .sc s, ctx, tl, n, v => h1 ctx s tl n v
    | .str, _, _, _, v => h2 v
    | .bytes, _, _, _, _ => trivial
    | .struct fs, ctx, _, _, v => Fields.DFits_all h1 h2 fs ctx v
  theorem Fields.DFits_all (h1 : ∀ ctx s tl n x, S.fitSc ctx s tl n x) (h2 : ∀ x, S.fitStr x) :
      ∀ (fs : Fields) (ctx : List Fields) (v : fs.Val), fs.DFits S ctx v
    | .nil, _, _ => trivial
    | .void _ r, ctx, v => Fields.DFits_all h1 h2 r ctx v
    | .const _ _ _ _ r, ctx, v => Fields.DFits_all h1 h2 r ctx v
    | .one t bits big r, ctx, (v : t.Val × r.Val) =>
      ⟨Ty.DFits_all h1 h2 t _ _ _ v.1, Fields.DFits_all h1 h2 r ctx v.2⟩
    | .arr t len bits big r, ctx, (v : List t.Val × r.Val) =>
      ⟨fun x _ => Ty.DFits_all h1 h2 t _ _ _ x, Fields.DFits_all h1 h2 r ctx v.2⟩
end

/-- What Go encodes, cut off anywhere: `decode_size` asks for more bytes, which the message has. -/
theorem Fields.t_truncated_go (hS : S.LenOk) (h1 : ∀ ctx s tl n x, S.fitSc ctx s tl n x) (h2 : ∀ x, S.fitStr x) (h3 : S.sameLoop = false)
    (E : S.ScanOk) (K : S.TruncOk) (cg : Cfg) {fs : Fields} (hacc : fs.accepted = true) (hn : fs.noDirectDyn = true)
    (v : fs.Val) (hv : fs.Valid cg false v) (hr : fs.InRange v) (pre : Buf) (hsz : pre.length + fs.encodeSize v < S.maxLen)
    {d : Buf} (he : fs.encode cg v = some d) (k : Nat) (hk : k < d.length) :
    ∃ need : Nat, fs.tDecodeSize T (pre ++ d.take k) pre.length = some (-(need : Int)) ∧ k < need ∧ need ≤ d.length := by
  obtain ⟨d', g1, g2, g3, _, g5⟩ := Fields.encode_spec cg hacc hv
  rw [he] at g1; cases g1
  have hrep := Fields.wire_repr cg fs 0 v (Fields.accepted_facts hacc).1 hv hr
  have hk2 := (Fields.gRepr_short hS cg (fun e => by rw [h3] at e; cases e) fs [] v _ (by omega) (Fields.DFits_all h1 h2 fs [] v) hrep).2 rfl
  have ha : Agrees ((pre ++ d.take k) ++ d.drop k) (8 * pre.length) (fs.wire v) := by
    rw [List.append_assoc, List.take_append_drop, ← Nat.add_zero (8 * pre.length), ← Agrees.drop (by simp), List.drop_left]
    exact g5
  have hlt : (d.take k).length = k := by rw [List.length_take]; omega
  obtain ⟨need, e1, e2, e3⟩ := Fields.t_truncated_size E K cg hacc hn (N := d.length)
    (by rw [List.append_assoc, List.take_append_drop, List.length_append]; omega) hk2 ha (by omega)
    (by rw [List.length_append, hlt]; omega) (by rw [List.length_append]; omega)
  rw [List.length_append, hlt] at e2
  exact ⟨need, e1, by omega, e3⟩

end Bubbler
