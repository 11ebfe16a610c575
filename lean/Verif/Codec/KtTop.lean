import Verif.Codec.KtSound

/-
Kotlin's `decode` on whole messages: which inputs it accepts, and how they relate to what Go accepts.
-/
set_option linter.unusedSimpArgs false
namespace Bubbler

theorem Fields.ktDecode_of_repr (cg : Cfg) (c : KtCfg) {fs : Fields} (h : fs.accepted = true) (hn : fs.noDirectDyn = true)
    {d : Buf} (hd : d.length < 2 ^ 30) {base : Nat} {v : fs.Val} {ws : List (Option Bool)} (hr : fs.KtRepr cg v ws)
    (ha : Agrees d (8 * base) ws) :
    ∃ n : Nat, fs.ktDecode c d base = .ok (fs.toKt c [] v, n) ∧ fs.ktDecodeSize d base = some (n : Int) ∧ 8 * n = ws.length := by
  obtain ⟨h1, h2, h3, h4⟩ := Fields.accepted_facts h
  have hle := ha.length_le
  obtain ⟨o, e1, e2, l, q⟩ := Fields.ktDec_agrees' cg c fs [] v ws base 0 false d 0 h1 hn hd hr (by simp [ktOff]) (by simpa using ha)
  have hb : base + o + fs.sum / 8 ≤ d.length := by omega
  have hs := Fields.ktDecodeSize_of hd (fun _ => e1) q hb
  refine ⟨o + fs.sum / 8, ?_, hs, by omega⟩
  simp only [Fields.ktDecode, hs]
  rw [if_neg (Int.not_lt.mpr (Int.natCast_nonneg _))]
  simp only [e2]

theorem Fields.ktDecode_to_repr (cg : Cfg) (c : KtCfg) {fs : Fields} (h : fs.accepted = true) (hn : fs.noDirectDyn = true)
    (hsm : (Ty.struct fs).ktSmall = true) {d : Buf} (hd : d.length < 2 ^ 30) {base : Nat} (hb : base ≤ d.length) {kv : fs.KtVal} {n : Nat}
    (hk : fs.ktDecode c d base = .ok (kv, n)) :
    ∃ v ws, fs.KtRepr cg v ws ∧ Agrees d (8 * base) ws ∧ kv = fs.toKt c [] v ∧ 8 * n = ws.length := by
  obtain ⟨h1, h2, h3, h4⟩ := Fields.accepted_facts h
  simp only [Ty.ktSmall, Bool.and_eq_true, decide_eq_true_eq] at hsm
  unfold Fields.ktDecode at hk
  split at hk
  · cases hk
  · rename_i sz hsz
    split at hk
    · cases hk
    · rename_i hneg
      split at hk
      · cases hk
      · cases hk
      · rename_i v o e
        cases hk
        obtain ⟨c1, c2, c3, c4, c5⟩ := Fields.ktDec_sound cg c fs [] base 0 false d 0 kv o h1 hn hsm.1 hd (by simp [ktOff])
          hb (by omega) e
        obtain ⟨g1, g2, g3⟩ := Fields.ktDecodeSize_inv (o := o) hd (by omega) hsm.2 c2 c3 (fun _ => c4) hsz hneg
        have hscan0 : fs.ktDsFields 0 d base 0 = .ok (o : Int) := by
          cases hdyn : fs.dynamic
          · have := Fields.ktDsFields_static fs hdyn 0 d base 0
            rw [c3 hdyn]; exact this
          · exact g3 hdyn
        obtain ⟨v', ws, r1, r2, r3, r4⟩ := c5 (by omega) hscan0
        exact ⟨v', ws, r1, by simpa using r2, r3, by omega⟩

/-! ### Representations for Go and for Kotlin -/

theorem byteWire_det {d : Buf} {p : Nat} {a b : Byte} {as bs : List Byte} (h1 : Agrees d p (byteWire (a :: as)))
    (h2 : Agrees d p (byteWire (b :: bs))) : a = b ∧ Agrees d (p + 8) (byteWire as) ∧ Agrees d (p + 8) (byteWire bs) := by
  simp only [byteWire, Agrees.append, scWire_length] at h1 h2
  refine ⟨?_, h1.2, h2.2⟩
  have e1 := h1.1.sc_bits
  have e2 := h2.1.sc_bits
  apply BitVec.eq_of_getLsbD_eq
  intro i hi
  have a1 := e1 i hi
  have a2 := e2 i hi
  have hs : valueBit false 8 i = i := rfl
  rw [hs] at a1 a2
  rw [← a1, ← a2]

theorem str_det {d : Buf} : ∀ {s s' : List Byte} {p : Nat}, 0#8 ∉ s → 0#8 ∉ s' → Agrees d p (byteWire (s ++ [0#8])) →
    Agrees d p (byteWire (s' ++ [0#8])) → s = s'
  | [], [], p, _, _, _, _ => rfl
  | [], b :: bs, p, _, h, h1, h2 => by
    have := (byteWire_det h1 h2).1
    subst this
    simp at h
  | a :: as, [], p, h, _, h1, h2 => by
    have := (byteWire_det h1 h2).1
    subst this
    simp at h
  | a :: as, b :: bs, p, h, h', h1, h2 => by
    obtain ⟨e, e1, e2⟩ := byteWire_det h1 h2
    simp only [List.mem_cons, not_or] at h h'
    rw [e, str_det h.2 h'.2 e1 e2]

theorem leb_det {d : Buf} {s s' : List Byte} : ∀ {bs bs' : List Byte} {p m m' : Nat}, leb bs = some m → leb bs' = some m' →
    Agrees d p (byteWire (bs ++ s)) → Agrees d p (byteWire (bs' ++ s')) → bs = bs'
  | [], bs', p, m, m', h, _, _, _ => by cases h
  | a :: as, [], p, m, m', _, h, _, _ => by cases h
  | a :: as, b :: bs, p, m, m', h, h', h1, h2 => by
    obtain ⟨e, e1, e2⟩ := byteWire_det h1 h2
    subst e
    simp only [leb] at h h'
    by_cases ha : a.toNat < 128
    · rw [if_pos ha] at h h'
      by_cases hs : as = [] <;> by_cases hs' : bs = [] <;> simp_all
    · rw [if_neg ha] at h h'
      obtain ⟨x, hx, _⟩ := Option.map_eq_some_iff.mp h
      obtain ⟨y, hy, _⟩ := Option.map_eq_some_iff.mp h'
      rw [leb_det hx hy e1 e2]

theorem all2_cross {α : Type} {R K : α → List (Option Bool) → Prop} {d : Buf}
    (hf : ∀ x w x' w' p, R x w → K x' w' → Agrees d p w → Agrees d p w' → K x w ∧ w.length = w'.length) :
    ∀ {xs xs' : List α} {wss wss' : List (List (Option Bool))} {p : Nat}, All2 R xs wss → All2 K xs' wss' →
      xs.length = xs'.length → Agrees d p wss.flatten → Agrees d p wss'.flatten →
      All2 K xs wss ∧ wss.flatten.length = wss'.flatten.length
  | _, _, _, _, p, .nil, .nil, _, _, _ => ⟨.nil, rfl⟩
  | _, _, _, _, p, .nil, .cons _ _, h, _, _ => by simp at h
  | _, _, _, _, p, .cons _ _, .nil, h, _, _ => by simp at h
  | _, _, _, _, p, .cons r rs, .cons k ks, h, h1, h2 => by
    simp only [List.flatten_cons, Agrees.append] at h1 h2
    obtain ⟨a1, a2⟩ := hf _ _ _ _ p r k h1.1 h2.1
    rw [← a2] at h2
    obtain ⟨b1, b2⟩ := all2_cross hf rs ks (by simpa using h) h1.2 h2.2
    exact ⟨.cons a1 b1, by simp only [List.flatten_cons, List.length_append]; omega⟩

mutual
  /-- If Go and Kotlin both find a representation at a place, it is the same one. -/
  theorem Ty.repr_cross (cg : Cfg) {d : Buf} (hd : d.length < 2 ^ 30) : ∀ (t : Ty) (lp big : Bool) (n : Nat) (v v' : t.Val) (ws ws' : List (Option Bool)) (p : Nat),
      t.Repr cg lp n big v ws → t.KtRepr cg lp n big v' ws' → Agrees d p ws → Agrees d p ws' →
      t.KtRepr cg lp n big v ws ∧ ws.length = ws'.length
    | .sc s, lp, big, n, (v : BitVec s.width), (v' : BitVec s.width), ws, ws', p => by
      intro h h' _ _
      simp only [Ty.Repr, Ty.KtRepr] at h h' ⊢
      refine ⟨h, ?_⟩
      by_cases hb : (s.isBool && lp) = true
      · rw [if_pos hb] at h h'
        obtain ⟨y, e, _⟩ := h
        obtain ⟨y', e', _⟩ := h'
        rw [e, e', scWire_length, scWire_length]
      · rw [if_neg hb] at h h'
        rw [h.2, h'.2, scWire_length, scWire_length]
    | .str, lp, big, n, (v : List Byte), (v' : List Byte), ws, ws', p => by
      intro h h' a a'
      obtain ⟨h1, h2⟩ := h
      obtain ⟨h1', h2'⟩ := h'
      subst h2 h2'
      have := str_det h1 h1' a a'
      subst this
      exact ⟨⟨h1, rfl⟩, rfl⟩
    | .bytes, lp, big, n, (v : List Byte), (v' : List Byte), ws, ws', p => by
      intro h h' a a'
      obtain ⟨bs, h1, h2, h3⟩ := h
      obtain ⟨bs', m, h1', h2', h3', h4'⟩ := h'
      subst h3 h4'
      have := leb_det h1 h1' a a'
      subst this
      rw [h1] at h1'
      cases h1'
      have hl := a.length_le
      rw [byteWire_length, List.length_append] at hl
      have hm : v.length % 2 ^ 32 = v.length := Nat.mod_eq_of_lt (by omega)
      refine ⟨⟨bs, v.length, h1, hm, h3', rfl⟩, ?_⟩
      rw [hm] at h2'
      simp only [byteWire_length, List.length_append]; omega
    | .struct fs, lp, big, n, v, v', ws, ws', p => by
      intro h h' a a'
      exact Fields.repr_cross cg hd fs v v' ws ws' p h h' a a'
  theorem Fields.repr_cross (cg : Cfg) {d : Buf} (hd : d.length < 2 ^ 30) : ∀ (fs : Fields) (v v' : fs.Val) (ws ws' : List (Option Bool)) (p : Nat),
      fs.Repr cg v ws → fs.KtRepr cg v' ws' → Agrees d p ws → Agrees d p ws' →
      fs.KtRepr cg v ws ∧ ws.length = ws'.length
    | .nil, v, v', ws, ws', p => by
      intro h h' _ _
      simp only [Fields.Repr, Fields.KtRepr] at h h' ⊢
      exact ⟨h, by rw [h, h']⟩
    | .void n r, v, v', ws, ws', p => by
      intro h h' a a'
      obtain ⟨w, h1, h2⟩ := h
      obtain ⟨w', h1', h2'⟩ := h'
      subst h2 h2'
      rw [Agrees.append] at a a'
      obtain ⟨b1, b2⟩ := Fields.repr_cross cg hd r v v' w w' _ h1 h1' a.2 a'.2
      exact ⟨⟨w, b1, rfl⟩, by simp [b2]⟩
    | .const pr n big val r, v, v', ws, ws', p => by
      intro h h' a a'
      obtain ⟨w, h1, h2⟩ := h
      obtain ⟨w', h1', h2'⟩ := h'
      subst h2 h2'
      rw [Agrees.append] at a a'
      obtain ⟨b1, b2⟩ := Fields.repr_cross cg hd r v v' w w' _ h1 h1' a.2 a'.2
      exact ⟨⟨w, b1, rfl⟩, by simp [b2]⟩
    | .one t bits big r, (v : t.Val × r.Val), (v' : t.Val × r.Val), ws, ws', p => by
      intro h h' a a'
      obtain ⟨w1, w2, h1, h2, h3⟩ := h
      obtain ⟨w1', w2', h1', h2', h3'⟩ := h'
      subst h3 h3'
      rw [Agrees.append, Agrees.append] at a a'
      obtain ⟨b1, b2⟩ := Ty.repr_cross cg hd t false big _ v.1 v'.1 w1 w1' _ h1 h1' a.1.1 a'.1.1
      have a2' := a'.2
      rw [List.length_append, ← b2, ← List.length_append] at a2'
      obtain ⟨c1, c2⟩ := Fields.repr_cross cg hd r v.2 v'.2 w2 w2' _ h2 h2' a.2 a2'
      exact ⟨⟨w1, w2, b1, c1, rfl⟩, by simp only [List.length_append]; omega⟩
    | .arr t len bits big r, (v : List t.Val × r.Val), (v' : List t.Val × r.Val), ws, ws', p => by
      intro h h' a a'
      obtain ⟨wss, w2, h0, h1, h2, h3⟩ := h
      obtain ⟨wss', w2', h0', h1', h2', h3'⟩ := h'
      subst h3 h3'
      rw [Agrees.append] at a a'
      obtain ⟨b1, b2⟩ := all2_cross (fun x w x' w' p r k a a' => Ty.repr_cross cg hd t _ big _ x x' w w' p r k a a')
        h1 h1' (by rw [h0, h0']) a.1 a'.1
      have a2' := a'.2
      rw [← b2] at a2'
      obtain ⟨c1, c2⟩ := Fields.repr_cross cg hd r v.2 v'.2 w2 w2' _ h2 h2' a.2 a2'
      exact ⟨⟨wss, w2, h0, b1, c1, rfl⟩, by simp only [List.length_append]; omega⟩
end

theorem varint_len_le_leb {bs : List Byte} {m n : Nat} (h : leb bs = some m) (hn : n ≤ m) : (varint n).length ≤ bs.length :=
  varint_length_le bs.length (leb_ne_nil h) (by have := leb_lt _ _ h; omega)

theorem leb_canon : ∀ {bs : List Byte} {n : Nat}, leb bs = some n → bs.length ≤ (varint n).length → bs = varint n
  | [], n, h, _ => by cases h
  | b :: bs, n, h, hl => by
    simp only [leb] at h
    by_cases hb : b.toNat < 128
    · rw [if_pos hb] at h
      split at h
      · rename_i e
        cases h
        subst e
        rw [varint, if_pos hb]
        congr 1
        apply BitVec.eq_of_toNat_eq
        simp
      · cases h
    · rw [if_neg hb] at h
      obtain ⟨m, hm, e⟩ := Option.map_eq_some_iff.mp h
      have hne := leb_ne_nil hm
      have hb2 := b.isLt
      by_cases hn : n < 128
      · rw [varint, if_pos hn] at hl
        simp only [List.length_cons, List.length_nil] at hl
        omega
      · rw [varint, if_neg hn] at hl ⊢
        have hm2 : n / 128 = m := by omega
        rw [hm2] at hl ⊢
        simp only [List.length_cons] at hl
        rw [leb_canon hm (by omega)]
        congr 1
        apply BitVec.eq_of_toNat_eq
        rw [BitVec.toNat_ofNat]
        omega

theorem all2_canon {α : Type} {R K : α → List (Option Bool) → Prop} {W : α → List (Option Bool)} :
    ∀ {xs : List α} {wss : List (List (Option Bool))}, (∀ x w, x ∈ xs → K x w → w.length ≤ wss.flatten.length → ∃ w', R x w' ∧ w'.length = (W x).length ∧
        w'.length ≤ w.length ∧ (w'.length = w.length → w' = w)) →
      All2 K xs wss → ∃ wss', All2 R xs wss' ∧ wss'.flatten.length = ((xs.map W).flatten).length ∧
        wss'.flatten.length ≤ wss.flatten.length ∧ (wss'.flatten.length = wss.flatten.length → wss'.flatten = wss.flatten)
  | _, _, _, .nil => ⟨[], .nil, rfl, Nat.le_refl _, fun _ => rfl⟩
  | x :: xs, w :: wss, hf, .cons k ks => by
    obtain ⟨w', a1, a2, a3, a4⟩ := hf x w List.mem_cons_self k (by simp)
    obtain ⟨wss', b1, b2, b3, b4⟩ := all2_canon (W := W) (xs := xs) (wss := wss)
      (fun y z hy hz hl => hf y z (List.mem_cons_of_mem _ hy) hz (by simp only [List.flatten_cons, List.length_append]; omega)) ks
    refine ⟨w' :: wss', .cons a1 b1, ?_, ?_, ?_⟩
    · simp only [List.flatten_cons, List.map_cons, List.length_append]; omega
    · simp only [List.flatten_cons, List.length_append]; omega
    · intro e
      simp only [List.flatten_cons, List.length_append] at e ⊢
      rw [a4 (by omega), b4 (by omega)]

mutual
  /-- A representation for Kotlin is one for Go, or longer than the wire form. -/
  theorem Ty.ktRepr_canon (cg : Cfg) : ∀ (t : Ty) (lp big : Bool) (n : Nat) (v : t.Val) (ws : List (Option Bool)),
      ws.length < 2 ^ 31 → t.KtRepr cg lp n big v ws →
      ∃ ws', t.Repr cg lp n big v ws' ∧ ws'.length = (t.wire n big v).length ∧ ws'.length ≤ ws.length ∧ (ws'.length = ws.length → ws' = ws)
    | .sc s, lp, big, n, (v : BitVec s.width), ws => by
      intro _ h
      refine ⟨ws, by simpa only [Ty.Repr, Ty.KtRepr] using h, ?_, Nat.le_refl _, fun _ => rfl⟩
      simp only [Ty.KtRepr] at h
      simp only [Ty.wire, scWire_length]
      by_cases hb : (s.isBool && lp) = true
      · rw [if_pos hb] at h
        obtain ⟨y, e, _⟩ := h
        rw [e, scWire_length]
      · rw [if_neg hb] at h
        rw [h.2, scWire_length]
    | .str, lp, big, n, (v : List Byte), ws => by
      intro _ h
      exact ⟨ws, h, by rw [h.2]; rfl, Nat.le_refl _, fun _ => rfl⟩
    | .bytes, lp, big, n, (v : List Byte), ws => by
      intro hl h
      obtain ⟨bs, m, h1, h2, h3, h4⟩ := h
      subst h4
      have hvm : v.length ≤ m := by rw [← h2]; exact Nat.mod_le _ _
      have hle := varint_len_le_leb h1 hvm
      rw [byteWire_length, List.length_append] at hl
      refine ⟨byteWire (varint v.length ++ v), ⟨varint v.length, leb_varint _, by omega, rfl⟩, rfl, ?_, ?_⟩
      · simp only [byteWire_length, List.length_append]; omega
      · intro e
        simp only [byteWire_length, List.length_append] at e
        have hlen : bs.length ≤ 4 := by
          have := varint_length_le (n := v.length) 4 (by omega) (by omega)
          omega
        have hm : m < 2 ^ 28 := Nat.lt_of_lt_of_le (leb_lt _ _ h1) (Nat.pow_le_pow_right (by omega) (by omega))
        have hmv : m = v.length := by rw [← h2]; exact (Nat.mod_eq_of_lt (by omega)).symm
        rw [hmv] at h1
        rw [leb_canon h1 (by omega)]
    | .struct fs, lp, big, n, v, ws => by
      intro hl h
      exact Fields.ktRepr_canon cg fs v ws hl h
  theorem Fields.ktRepr_canon (cg : Cfg) : ∀ (fs : Fields) (v : fs.Val) (ws : List (Option Bool)),
      ws.length < 2 ^ 31 → fs.KtRepr cg v ws →
      ∃ ws', fs.Repr cg v ws' ∧ ws'.length = (fs.wire v).length ∧ ws'.length ≤ ws.length ∧ (ws'.length = ws.length → ws' = ws)
    | .nil, v, ws => by
      intro _ h
      simp only [Fields.KtRepr] at h
      exact ⟨ws, h, by rw [h]; rfl, Nat.le_refl _, fun _ => rfl⟩
    | .void n r, v, ws => by
      intro hl h
      obtain ⟨w, h1, h2⟩ := h
      subst h2
      rw [List.length_append] at hl
      obtain ⟨w', a1, a2, a3, a4⟩ := Fields.ktRepr_canon cg r v w (by omega) h1
      refine ⟨_, ⟨w', a1, rfl⟩, ?_, ?_, ?_⟩
      · simp only [Fields.wire, List.length_append]; omega
      · simp only [List.length_append]; omega
      · intro e
        simp only [List.length_append] at e
        rw [a4 (by omega)]
    | .const pr n big val r, v, ws => by
      intro hl h
      obtain ⟨w, h1, h2⟩ := h
      subst h2
      rw [List.length_append] at hl
      obtain ⟨w', a1, a2, a3, a4⟩ := Fields.ktRepr_canon cg r v w (by omega) h1
      refine ⟨_, ⟨w', a1, rfl⟩, ?_, ?_, ?_⟩
      · simp only [Fields.wire, List.length_append]; omega
      · simp only [List.length_append]; omega
      · intro e
        simp only [List.length_append] at e
        rw [a4 (by omega)]
    | .one t bits big r, (v : t.Val × r.Val), ws => by
      intro hl h
      obtain ⟨w1, w2, h1, h2, h3⟩ := h
      subst h3
      simp only [List.length_append] at hl
      obtain ⟨w1', a1, a2, a3, a4⟩ := Ty.ktRepr_canon cg t false big _ v.1 w1 (by omega) h1
      obtain ⟨w2', b1, b2, b3, b4⟩ := Fields.ktRepr_canon cg r v.2 w2 (by omega) h2
      refine ⟨_, ⟨w1', w2', a1, b1, rfl⟩, ?_, ?_, ?_⟩
      · simp only [Fields.wire, List.length_append]; omega
      · simp only [List.length_append]; omega
      · intro e
        simp only [List.length_append] at e
        rw [a4 (by omega), b4 (by omega)]
    | .arr t len bits big r, (v : List t.Val × r.Val), ws => by
      intro hl h
      obtain ⟨wss, w2, h0, h1, h2, h3⟩ := h
      subst h3
      simp only [List.length_append] at hl
      obtain ⟨wss', a1, a2, a3, a4⟩ := all2_canon (W := fun x => t.wire (bits.getD 0 / len) big x)
        (R := fun x w => t.Repr cg (cg.useLoop len) (bits.getD 0 / len) big x w)
        (fun x w _ hk hw => Ty.ktRepr_canon cg t (cg.useLoop len) big (bits.getD 0 / len) x w (by omega) hk) h1
      obtain ⟨w2', b1, b2, b3, b4⟩ := Fields.ktRepr_canon cg r v.2 w2 (by omega) h2
      refine ⟨_, ⟨wss', w2', h0, a1, b1, rfl⟩, ?_, ?_, ?_⟩
      · simp only [Fields.wire, List.length_append]; omega
      · simp only [List.length_append]; omega
      · intro e
        simp only [List.length_append] at e
        rw [a4 (by omega), b4 (by omega)]
end

theorem all2_short {α : Type} {R K : α → List (Option Bool) → Prop} {W : α → List (Option Bool)} :
    ∀ {xs : List α} {wss : List (List (Option Bool))}, (∀ x w, R x w → w.length ≤ wss.flatten.length → (W x).length ≤ w.length ∧
        (w.length = (W x).length → K x w)) →
      All2 R xs wss → ((xs.map W).flatten).length ≤ wss.flatten.length ∧
        (wss.flatten.length = ((xs.map W).flatten).length → All2 K xs wss)
  | _, _, _, .nil => ⟨Nat.le_refl _, fun _ => .nil⟩
  | x :: xs, w :: wss, hf, .cons k ks => by
    obtain ⟨a1, a2⟩ := hf x w k (by simp)
    obtain ⟨b1, b2⟩ := all2_short (W := W) (K := K) (xs := xs) (wss := wss)
      (fun y z hz hl => hf y z hz (by simp only [List.flatten_cons, List.length_append]; omega)) ks
    simp only [List.flatten_cons, List.map_cons, List.length_append]
    exact ⟨by omega, fun e => .cons (a2 (by omega)) (b2 (by omega))⟩

mutual
  /-- A representation for Go that is as short as the wire form is one for Kotlin. -/
  theorem Ty.repr_short (cg : Cfg) : ∀ (t : Ty) (lp big : Bool) (n : Nat) (v : t.Val) (ws : List (Option Bool)),
      ws.length < 2 ^ 35 → t.Repr cg lp n big v ws →
      (t.wire n big v).length ≤ ws.length ∧ (ws.length = (t.wire n big v).length → t.KtRepr cg lp n big v ws)
    | .sc s, lp, big, n, (v : BitVec s.width), ws => by
      intro _ h
      refine ⟨?_, fun _ => by simpa only [Ty.Repr, Ty.KtRepr] using h⟩
      simp only [Ty.Repr] at h
      simp only [Ty.wire, scWire_length]
      by_cases hb : (s.isBool && lp) = true
      · rw [if_pos hb] at h
        obtain ⟨y, e, _⟩ := h
        rw [e, scWire_length]; exact Nat.le_refl _
      · rw [if_neg hb] at h
        rw [h.2, scWire_length]; exact Nat.le_refl _
    | .str, lp, big, n, (v : List Byte), ws => by
      intro _ h
      exact ⟨by rw [h.2]; exact Nat.le_refl _, fun _ => h⟩
    | .bytes, lp, big, n, (v : List Byte), ws => by
      intro hl h
      obtain ⟨bs, h1, h2, h3⟩ := h
      subst h3
      have hle := varint_len_le_leb h1 (Nat.le_refl _)
      rw [byteWire_length, List.length_append] at hl
      simp only [Ty.wire, byteWire_length, List.length_append]
      refine ⟨by omega, fun e => ⟨bs, v.length, h1, Nat.mod_eq_of_lt (by omega), ?_, rfl⟩⟩
      have := varint_length_le (n := v.length) 5 (by omega) (by omega)
      omega
    | .struct fs, lp, big, n, v, ws => by
      intro hl h
      exact Fields.repr_short cg fs v ws hl h
  theorem Fields.repr_short (cg : Cfg) : ∀ (fs : Fields) (v : fs.Val) (ws : List (Option Bool)),
      ws.length < 2 ^ 35 → fs.Repr cg v ws →
      (fs.wire v).length ≤ ws.length ∧ (ws.length = (fs.wire v).length → fs.KtRepr cg v ws)
    | .nil, v, ws => by
      intro _ h
      exact ⟨by simp [Fields.wire], fun _ => h⟩
    | .void n r, v, ws => by
      intro hl h
      obtain ⟨w, h1, h2⟩ := h
      subst h2
      rw [List.length_append] at hl
      obtain ⟨a1, a2⟩ := Fields.repr_short cg r v w (by omega) h1
      simp only [Fields.wire, List.length_append]
      exact ⟨by omega, fun e => ⟨w, a2 (by omega), rfl⟩⟩
    | .const pr n big val r, v, ws => by
      intro hl h
      obtain ⟨w, h1, h2⟩ := h
      subst h2
      rw [List.length_append] at hl
      obtain ⟨a1, a2⟩ := Fields.repr_short cg r v w (by omega) h1
      simp only [Fields.wire, List.length_append]
      exact ⟨by omega, fun e => ⟨w, a2 (by omega), rfl⟩⟩
    | .one t bits big r, (v : t.Val × r.Val), ws => by
      intro hl h
      obtain ⟨w1, w2, h1, h2, h3⟩ := h
      subst h3
      simp only [List.length_append] at hl
      obtain ⟨a1, a2⟩ := Ty.repr_short cg t false big _ v.1 w1 (by omega) h1
      obtain ⟨b1, b2⟩ := Fields.repr_short cg r v.2 w2 (by omega) h2
      simp only [Fields.wire, List.length_append]
      exact ⟨by omega, fun e => ⟨w1, w2, a2 (by omega), b2 (by omega), rfl⟩⟩
    | .arr t len bits big r, (v : List t.Val × r.Val), ws => by
      intro hl h
      obtain ⟨wss, w2, h0, h1, h2, h3⟩ := h
      subst h3
      simp only [List.length_append] at hl
      obtain ⟨a1, a2⟩ := all2_short (W := fun x => t.wire (bits.getD 0 / len) big x)
        (K := fun x w => t.KtRepr cg (cg.useLoop len) (bits.getD 0 / len) big x w)
        (fun x w hk hw => Ty.repr_short cg t (cg.useLoop len) big (bits.getD 0 / len) x w (by omega) hk) h1
      obtain ⟨b1, b2⟩ := Fields.repr_short cg r v.2 w2 (by omega) h2
      simp only [Fields.wire, List.length_append]
      exact ⟨by omega, fun e => ⟨wss, w2, h0, a2 (by omega), b2 (by omega), rfl⟩⟩
end

end Bubbler
