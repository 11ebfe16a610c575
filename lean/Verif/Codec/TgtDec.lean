import Verif.Codec.TgtEnc
import Verif.Codec.KtDec

/-
Decoders of the targets modelled in TgtMsg.lean: if the leaf statements of a target read what stands in the
data (`TgtDecSpec.DecOk`), its `decode` and `decode_size` read a representation of a message.
-/
set_option linter.unusedSimpArgs false
namespace Bubbler

/-- What a target makes of Go values, and the values and representations for which it does. -/
structure TgtDecSpec (T : Tgt) where
  /-- bound on the size of the data -/
  maxLen : Nat
  /-- the value of the target for a Go value -/
  toSc : List Fields → (s : Sc) → BitVec s.width → T.SVal s
  toStr : List Byte → T.Str
  /-- scalars (looped or not, bits) the decoder gets right -/
  fitSc : List Fields → (s : Sc) → (lp : Bool) → (n : Nat) → BitVec s.width → Prop
  fitStr : List Byte → Prop
  /-- length prefixes the decoder gets right: bytes, number they stand for, length -/
  fitLen : List Byte → Nat → Nat → Prop
  /-- constants the decoder gets right -/
  constOk : (p : Prim) → (n : Nat) → (big : Bool) → (val : Nat) → Bool
  /-- loops over elements of fixed width respect `start` -/
  loopAny : Bool
  /-- the comparison with Go is for the same loop option -/
  sameLoop : Bool

/-- Go and the target loop over the same arrays, where that matters. -/
def TgtDecSpec.Loops {T : Tgt} (S : TgtDecSpec T) (cg : Cfg) : Prop :=
  S.sameLoop = true → ∀ len, cg.useLoop len = T.loop len

/-- How a scalar stands in data Go accepts (as in `Ty.Repr`): `gl`, Go's decoder loops over the array. -/
def Sc.GRepr (s : Sc) (gl : Bool) (n : Nat) (big : Bool) (x : BitVec s.width) (ws : List (Option Bool)) : Prop :=
  if s.isBool && gl then ∃ y : BitVec n, ws = scWire n big y ∧ x = (if y = 0#n then 0#_ else 1#_)
  else s.InRange n x ∧ ws = scWire n big x

theorem Sc.GRepr_length {s : Sc} {gl : Bool} {n : Nat} {big : Bool} {x : BitVec s.width} {ws : List (Option Bool)}
    (h : s.GRepr gl n big x ws) : ws.length = n := by
  unfold Sc.GRepr at h
  split at h
  · obtain ⟨y, e, _⟩ := h; rw [e, scWire_length]
  · rw [h.2, scWire_length]

mutual
  /-- Which bit strings the decoder of the target takes for `v`: as `Repr`, restricted to what it gets right. -/
  def Ty.GRepr {T : Tgt} (S : TgtDecSpec T) (c : Cfg) : (t : Ty) → List Fields → (tl gl : Bool) → (n : Nat) → (big : Bool) → t.Val →
      List (Option Bool) → Prop
    | .sc s, ctx, tl, gl, n, big, (x : BitVec s.width), ws =>
      (S.fitSc ctx s tl n x ∧ (S.sameLoop = true → gl = tl)) ∧ s.GRepr gl n big x ws
    | .str, _, _, _, _, _, (s : List Byte), ws => S.fitStr s ∧ 0#8 ∉ s ∧ ws = byteWire (s ++ [0#8])
    | .bytes, _, _, _, _, _, (s : List Byte), ws =>
      ∃ bs m, leb bs = some m ∧ S.fitLen bs m s.length ∧ ws = byteWire (bs ++ s)
    | .struct fs, ctx, _, _, _, _, v, ws => fs.GRepr S c ctx v ws
  def Fields.GRepr {T : Tgt} (S : TgtDecSpec T) (c : Cfg) : (fs : Fields) → List Fields → fs.Val → List (Option Bool) → Prop
    | .nil, _, _, ws => ws = []
    | .void n r, ctx, v, ws => ∃ ws', r.GRepr S c ctx v ws' ∧ ws = List.replicate n none ++ ws'
    | .const _ n big val r, ctx, v, ws => ∃ ws', r.GRepr S c ctx v ws' ∧ ws = scWire n big (BitVec.ofNat 64 val) ++ ws'
    | .one t bits big r, ctx, (v : t.Val × r.Val), ws =>
      ∃ w1 w2, t.GRepr S c (.one t bits big r :: ctx) false false (bits.getD 0) big v.1 w1 ∧ r.GRepr S c ctx v.2 w2 ∧
        ws = w1 ++ (if t.dynamic then List.replicate (bits.getD 0) none else []) ++ w2
    | .arr t len bits big r, ctx, (v : List t.Val × r.Val), ws =>
      ∃ wss w2, v.1.length = len ∧
        All2 (fun x w => t.GRepr S c (.arr t len bits big r :: ctx) (T.loop len) (c.useLoop len) (bits.getD 0 / len) big x w) v.1 wss ∧
        r.GRepr S c ctx v.2 w2 ∧ ws = wss.flatten ++ w2
end

mutual
  /-- The value of the target for a Go value. -/
  def Ty.toT {T : Tgt} (S : TgtDecSpec T) : (t : Ty) → List Fields → t.Val → t.TVal T
    | .sc s, ctx, (x : BitVec s.width) => S.toSc ctx s x
    | .str, _, (x : List Byte) => S.toStr x
    | .bytes, _, (x : List Byte) => x
    | .struct fs, ctx, v => fs.toT S ctx v
  def Fields.toT {T : Tgt} (S : TgtDecSpec T) : (fs : Fields) → List Fields → fs.Val → fs.TVal T
    | .nil, _, _ => ()
    | .void _ r, ctx, v => r.toT S ctx v
    | .const _ _ _ _ r, ctx, v => r.toT S ctx v
    | .one t bits big r, ctx, (v : t.Val × r.Val) => (t.toT S (.one t bits big r :: ctx) v.1, r.toT S ctx v.2)
    | .arr t len bits big r, ctx, (v : List t.Val × r.Val) =>
      (v.1.map (fun x => t.toT S (.arr t len bits big r :: ctx) x), r.toT S ctx v.2)
end

mutual
  def Ty.tDecOk {T : Tgt} (S : TgtDecSpec T) : Ty → Bool
    | .struct fs => fs.tDecOk S false
    | _ => true
  /-- Every constant and array, at any depth, is one the decoder of the target gets right.
  `top`: the fields of the message itself, not of a nested struct. -/
  def Fields.tDecOk {T : Tgt} (S : TgtDecSpec T) : Fields → (top : Bool) → Bool
    | .nil, _ => true
    | .void _ r, top => r.tDecOk S top
    | .const p n big val r, top => S.constOk p n big val && r.tDecOk S top
    | .one t _ _ r, top => t.tDecOk S && r.tDecOk S top
    | .arr t len _ _ r, top => t.tDecOk S && r.tDecOk S top && (S.loopAny || top || !T.loop len || t.dynamic)
end

/-- The leaf statements of the decoder read what stands in the data. -/
structure TgtDecSpec.DecOk {T : Tgt} (S : TgtDecSpec T) : Prop where
  loopBase : S.loopAny = true → ∀ b, T.loopBase b = b
  loopBase0 : T.loopBase 0 = 0
  wrap : ∀ x : Int, 0 ≤ x → x ≤ (S.maxLen : Int) → T.wrap x = x
  ret : ∀ x : Int, -(S.maxLen : Int) ≤ x → x ≤ (S.maxLen : Int) → T.ret x = x
  rem : ∀ n b : Nat, b ≤ n → n < S.maxLen → T.rem n b = (n : Int) - b
  sub : ∀ n base rel : Nat, base + rel ≤ n → n < S.maxLen → T.sub n base rel = true
  sc : ∀ ctx s big arr d start n base x gl ws, s.wf n = true → (arr = true → s.wfArr = true) →
    S.fitSc ctx s false n x → (S.sameLoop = true → gl = false) → s.GRepr gl n big x ws → d.length < S.maxLen → Agrees d (8 * base + start) ws →
    T.decSc ctx s big arr d start n base = some (S.toSc ctx s x)
  scLoop : ∀ ctx s big d start n base x gl ws, s.wf n = true → s.wfArr = true →
    S.fitSc ctx s true n x → (S.sameLoop = true → gl = true) → s.GRepr gl n big x ws → d.length < S.maxLen → Agrees d (8 * base + start) ws →
    T.decScLoop ctx s big d (8 * base + start) n = some (S.toSc ctx s x)
  const : ∀ p n big val start base d, 0 < n → n ≤ p.width → (big = true → n = p.width) → val < 2 ^ n →
    S.constOk p n big val = true → d.length < S.maxLen → Agrees d (8 * base + start) (scWire n big (BitVec.ofNat 64 val)) →
    T.decConst p n big val d start base = some true
  str : ∀ s pos d, S.fitStr s → 0#8 ∉ s → d.length < S.maxLen → Agrees d (8 * pos) (byteWire (s ++ [0#8])) →
    T.decStr d pos = .ok (S.toStr s, s.length + 1)
  dsStr : ∀ s (base off k : Nat) d, 0#8 ∉ s → d.length < S.maxLen →
    Agrees d (8 * (base + off + k)) (byteWire (s ++ [0#8])) → T.dsStr k d base off = .ok ((off + (s.length + 1) : Nat) : Int)
  bytes : ∀ bs m s pos d, leb bs = some m → S.fitLen bs m s.length → d.length < S.maxLen →
    Agrees d (8 * pos) (byteWire (bs ++ s)) → T.decBytes d pos = .ok (s, bs.length + s.length)
  dsBytes : ∀ bs m s (base off k : Nat) d, leb bs = some m → S.fitLen bs m s.length → d.length < S.maxLen →
    Agrees d (8 * (base + off + k)) (byteWire (bs ++ s)) →
    T.dsBytes k d base off = .ok ((off + (bs.length + s.length) : Nat) : Int)

variable {T : Tgt} {S : TgtDecSpec T}

mutual
  theorem Ty.GRepr_length (c : Cfg) : ∀ (t : Ty) (ctx : List Fields) (arr tl gl big : Bool) (start n : Nat) (v : t.Val) (ws : List (Option Bool)),
      t.wf = true → t.elemOk arr start n → t.dynamic = false → t.GRepr S c ctx tl gl n big v ws → ws.length = t.fixed n
    | .sc s, ctx, arr, tl, gl, big, start, n, (v : BitVec s.width), ws => by
      intro _ _ _ h
      exact Sc.GRepr_length h.2
    | .str, ctx, arr, tl, gl, big, start, n, v, ws => by intro _ _ h; simp [Ty.dynamic] at h
    | .bytes, ctx, arr, tl, gl, big, start, n, v, ws => by intro _ _ h; simp [Ty.dynamic] at h
    | .struct fs, ctx, arr, tl, gl, big, start, n, v, ws => by
      intro hwf _ hd h
      simp only [Ty.wf, Bool.and_eq_true] at hwf
      simp only [Ty.dynamic] at hd
      simp only [Ty.fixed, hd, Bool.false_eq_true, if_false]
      exact Fields.GRepr_length c fs ctx 0 v ws hwf.1 hd h
  theorem Fields.GRepr_length (c : Cfg) : ∀ (fs : Fields) (ctx : List Fields) (start : Nat) (v : fs.Val) (ws : List (Option Bool)),
      fs.wf start = true → fs.dynamic = false → fs.GRepr S c ctx v ws → ws.length = fs.sum
    | .nil, ctx, start, v, ws => by
      intro _ _ h
      simp only [Fields.GRepr] at h
      subst h; rfl
    | .void n r, ctx, start, v, ws => by
      intro hw hd h
      obtain ⟨ws', h1, h2⟩ := h
      simp only [Fields.wf, Fields.dynamic] at hw hd
      have := Fields.GRepr_length c r ctx (start + n) v ws' hw hd h1
      rw [h2]; simp [Fields.sum, this]
    | .const p n big val r, ctx, start, v, ws => by
      intro hw hd h
      obtain ⟨ws', h1, h2⟩ := h
      simp only [Fields.wf, Fields.dynamic, Bool.and_eq_true] at hw hd
      have := Fields.GRepr_length c r ctx (start + n) v ws' hw.2 hd h1
      rw [h2]; simp [Fields.sum, this]
    | .one t bits big r, ctx, start, v, ws => by
      intro hw hd h
      obtain ⟨h1, h2, h3, h4, _⟩ := wf_one hw
      simp only [Fields.dynamic, Bool.or_eq_false_iff] at hd
      obtain ⟨v1, v2⟩ := v
      obtain ⟨w1, w2, a1, a2, a3⟩ := h
      have b1 := Ty.GRepr_length c t _ false false false big start _ v1 w1 h1 h3 hd.1 a1
      have b2 := Fields.GRepr_length c r ctx _ v2 w2 h2 hd.2 a2
      simp only [hd.1, Bool.false_eq_true, if_false, List.append_nil] at a3 h4
      rw [a3, List.length_append]; simp only [Fields.sum]; omega
    | .arr t len bits big r, ctx, start, v, ws => by
      intro hw hd h
      obtain ⟨h0, h1, h2, h3, h4, h5, _⟩ := wf_arr hw
      simp only [Fields.dynamic, Bool.or_eq_false_iff] at hd
      obtain ⟨v1, v2⟩ := v
      obtain ⟨wss, w2, hl, a1, a2, a3⟩ := h
      simp only at hl a1 a2
      have b2 := Fields.GRepr_length c r ctx _ v2 w2 h2 hd.2 a2
      have hrec := fun x w => Ty.GRepr_length c t (.arr t len bits big r :: ctx) true (T.loop len) (c.useLoop len) big
        (start + 0 * (bits.getD 0 / len)) (bits.getD 0 / len) x w h1 (h3 0) hd.1
      have : wss.flatten.length = v1.length * (bits.getD 0 / len) := by
        clear hw hl a3
        induction a1 with
        | nil => simp
        | cons hx _ ih =>
          rw [List.flatten_cons, List.length_append, hrec _ _ hx, ih, h4, List.length_cons, Nat.add_mul, Nat.one_mul]
          omega
      rw [a3, List.length_append, this, hl, h5, b2]; rfl
end

theorem tDecIdx_agrees {α β : Type} {R : α → List (Option Bool) → Prop} (g : α → β) (f : Nat → Nat → Res (β × Nat))
    (sc : Int → ScanX) (dd : Bool) (d : Buf) (base eb start : Nat)
    {xs : List α} {wss : List (List (Option Bool))} (h : All2 R xs wss) :
    (∀ x w, R x w → ∀ i off, Agrees d (8 * (base + off) + (start + i * eb)) w →
      ∃ o : Nat, (dd = true → sc off = .ok (o : Int)) ∧ f i off = .ok (g x, o) ∧ 8 * o + eb = 8 * off + w.length ∧
        (dd = false → o = off)) →
    ∀ (i off : Nat), Agrees d (8 * (base + off) + (start + i * eb)) wss.flatten →
    ∃ o : Nat, (dd = true → iterX sc xs.length off = .ok (o : Int)) ∧ decIdx f xs.length i off = .ok (xs.map g, o) ∧
      8 * o + xs.length * eb = 8 * off + wss.flatten.length ∧ (dd = false → o = off) := by
  intro hf
  induction h with
  | nil => intro i off _; exact ⟨off, fun _ => rfl, rfl, by simp, fun _ => rfl⟩
  | @cons x w xs wss hx _ ih =>
    intro i off h
    simp only [List.flatten_cons] at h
    obtain ⟨h1, h2⟩ := Agrees.append.mp h
    obtain ⟨o1, s1, e1, l1, q1⟩ := hf x w hx i off h1
    have hpos : 8 * (base + o1) + (start + (i + 1) * eb) = 8 * (base + off) + (start + i * eb) + w.length := by
      rw [Nat.add_mul, Nat.one_mul]; omega
    rw [← hpos] at h2
    obtain ⟨o, s2, e2, l2, q2⟩ := ih (i + 1) o1 h2
    refine ⟨o, ?_, ?_, ?_, fun h => (q2 h).trans (q1 h)⟩
    · intro hd
      simp only [List.length_cons, iterX, s1 hd]; exact s2 hd
    · simp only [List.length_cons, decIdx, e1, e2, List.map_cons]
    · simp only [List.flatten_cons, List.length_append, List.length_cons, Nat.add_mul, Nat.one_mul]
      omega

theorem tDsFinish_ok (E : S.DecOk) {d : Buf} (hd : d.length < S.maxLen) {base fixed o : Nat} (h : base + o + fixed ≤ d.length) :
    tDsFinish T d (base : Int) fixed (.ok (o : Int)) = some ((o + fixed : Nat) : Int) := by
  have e1 : T.wrap ((o : Int) + (fixed : Nat)) = ((o + fixed : Nat) : Int) := by rw [E.wrap _ (by omega) (by omega)]; omega
  have e2 : T.rem d.length (base : Nat) = (d.length : Int) - (base : Nat) := E.rem _ _ (by omega) hd
  simp only [tDsFinish]
  rw [e1, e2, if_neg (by omega), E.ret _ (by omega) (by omega)]

theorem Fields.tDecodeSize_of (E : S.DecOk) {fs : Fields} {d : Buf} (hd : d.length < S.maxLen) {base o : Nat}
    (h : fs.tDsFields T 0 d base 0 = .ok (o : Int)) (q : fs.dynamic = false → o = 0) (hle : base + o + fs.sum / 8 ≤ d.length) :
    fs.tDecodeSize T d base = some ((o + fs.sum / 8 : Nat) : Int) := by
  unfold Fields.tDecodeSize
  by_cases hdyn : fs.dynamic = true
  · rw [if_pos hdyn]
    simp only [h]
    exact tDsFinish_ok E hd hle
  · rw [if_neg hdyn]
    have := q (by simpa using hdyn)
    have e2 : T.rem d.length (base : Nat) = (d.length : Int) - (base : Nat) := E.rem _ _ (by omega) hd
    rw [e2, if_neg (by omega), this, Nat.zero_add]

theorem Fields.tCheck_of {fs : Fields} {d : Buf} {base n : Nat} (h : fs.tDecodeSize T d base = some ((n : Nat) : Int)) :
    fs.tCheck T d base = .ok () := by
  unfold Fields.tCheck
  rw [h]
  cases T.checks
  · rfl
  · simp only [if_true]
    rw [if_neg (Int.not_lt.mpr (Int.natCast_nonneg _))]

mutual
  theorem Ty.tDec_agrees (E : S.DecOk) (c : Cfg) : ∀ (t : Ty) (ctx : List Fields) (big arr tl gl : Bool) (v : t.Val)
      (ws : List (Option Bool)) (start n base : Nat) (d : Buf) (off : Nat),
      t.wf = true → t.elemOk arr start n → t.noDirectDyn = true → t.tDecOk S = true → (∀ s, t = .sc s → tl = false) →
      d.length < S.maxLen → t.GRepr S c ctx tl gl n big v ws →
      Agrees d (8 * (base + off) + start) ws →
      ∃ o : Nat, (t.dynamic = true → t.tDsElem T (start / 8) d base off = .ok (o : Int)) ∧
        t.tDec T ctx big arr d start n base off = .ok (t.toT S ctx v, o) ∧
        8 * o + t.fixed n = 8 * off + ws.length ∧ (t.dynamic = false → o = off)
    | .sc s, ctx, big, arr, tl, gl, v, ws, start, n, base, d, off => by
      intro hw hok _ _ htl hd hr hag
      have hl := Ty.GRepr_length (S := S) c (.sc s) ctx arr tl gl big start n v ws hw hok rfl hr
      simp only [Ty.elemOk] at hok
      obtain ⟨⟨hf, hsl⟩, hr⟩ := hr
      rw [htl s rfl] at hf hsl
      have e := E.sc ctx s big arr d start n (base + off) v gl ws hok.1 hok.2 hf hsl hr hd hag
      refine ⟨off, by simp [Ty.dynamic], ?_, by rw [hl], fun _ => rfl⟩
      simp only [Ty.tDec, e]
      rfl
    | .str, ctx, big, arr, tl, gl, (v : List Byte), ws, start, n, base, d, off => by
      intro _ hok _ _ _ hd hr hag
      simp only [Ty.elemOk] at hok
      obtain ⟨hf, hnz, hws⟩ := hr
      have e : 8 * (base + off) + start = 8 * (base + off + start / 8) := by omega
      rw [e, hws] at hag
      refine ⟨off + (v.length + 1), fun _ => ?_, ?_, ?_, by simp [Ty.dynamic]⟩
      · simp only [Ty.tDsElem]
        exact E.dsStr v base off (start / 8) d hnz hd hag
      · simp only [Ty.tDec, E.str v _ d hf hnz hd hag]
        rfl
      · simp only [Ty.fixed, hws, byteWire_length, List.length_append, List.length_cons, List.length_nil]
        omega
    | .bytes, ctx, big, arr, tl, gl, (v : List Byte), ws, start, n, base, d, off => by
      intro _ hok _ _ _ hd hr hag
      simp only [Ty.elemOk] at hok
      obtain ⟨bs, m, hlb, hf, hws⟩ := hr
      have e : 8 * (base + off) + start = 8 * (base + off + start / 8) := by omega
      rw [e, hws] at hag
      refine ⟨off + (bs.length + v.length), fun _ => ?_, ?_, ?_, by simp [Ty.dynamic]⟩
      · simp only [Ty.tDsElem]
        exact E.dsBytes bs m v base off (start / 8) d hlb hf hd hag
      · simp only [Ty.tDec, E.bytes bs m v _ d hlb hf hd hag]
        rfl
      · simp only [Ty.fixed, hws, byteWire_length, List.length_append]
        omega
    | .struct fs, ctx, big, arr, tl, gl, v, ws, start, n, base, d, off => by
      intro hwf hok hnd hdk _ hd hr hag
      have hlen := Ty.GRepr_length (S := S) c (.struct fs) ctx arr tl gl big start n v ws hwf hok
      simp only [Ty.elemOk] at hok
      simp only [Ty.wf, Bool.and_eq_true, decide_eq_true_eq] at hwf
      have hb : 8 * (base + off + start / 8) = 8 * (base + off) + start := by omega
      obtain ⟨o, e1, e2, l, q⟩ := Fields.tDec_agrees E c fs ctx v ws 0 (base + off + start / 8) false d 0
        hwf.1 (by simpa [Ty.noDirectDyn] using hnd) (by simpa [Ty.tDecOk] using hdk) (by simp) hd hr (by
          rw [show ∀ a, 8 * (a + 0) + 0 = 8 * a from fun a => by omega, hb]; exact hag)
      have hle := hag.1
      rw [← hb] at hle
      have hsz := Fields.tDecodeSize_of E (fs := fs) (base := base + off + start / 8) (o := o) hd e1 q (by omega)
      have hsub := E.sub d.length base (off + start / 8) (by omega) hd
      have hsub' : ∀ x : Int, x = ((off + start / 8 : Nat) : Int) → T.sub d.length base (T.wrap x) = true := by
        intro x hx
        rw [hx, E.wrap _ (Int.natCast_nonneg _) (by omega)]
        exact hsub
      refine ⟨if fs.dynamic then off + (o + fs.sum / 8) else off, ?_, ?_, ?_, ?_⟩
      · intro hdyn
        simp only [Ty.dynamic] at hdyn
        simp only [Ty.tDsElem, hdyn, if_true, tDsSub]
        rw [if_pos (hsub' _ (show (off : Int) + (start / 8 : Nat) = ((off + start / 8 : Nat) : Int) by omega))]
        have hw3 : T.wrap ((off : Int) + base + (start / 8 : Nat)) = ((base + off + start / 8 : Nat) : Int) := by
          rw [E.wrap _ (by omega) (by omega)]; omega
        rw [hw3]
        have hsz2 := hsz
        rw [Fields.tDecodeSize, if_pos hdyn] at hsz2
        simp only [hsz2]
        rw [if_neg (Int.not_lt.mpr (Int.natCast_nonneg _)), ← Int.natCast_add, E.wrap _ (by omega) (by omega)]
      · simp only [Ty.tDec, hsub, if_true, Fields.tCheck_of hsz, e2]
        rfl
      · simp only [Ty.fixed]
        by_cases hdyn : fs.dynamic = true
        · simp only [hdyn, if_true]; omega
        · simp only [hdyn, if_false]
          have := q (by simpa using hdyn)
          simp only [Bool.false_eq_true, if_false]
          omega
      · intro hdyn
        simp only [Ty.dynamic] at hdyn
        simp [hdyn]
  theorem Fields.tDec_agrees (E : S.DecOk) (c : Cfg) : ∀ (fs : Fields) (ctx : List Fields) (v : fs.Val) (ws : List (Option Bool))
      (start base : Nat) (top : Bool) (d : Buf) (off : Nat),
      fs.wf start = true → fs.noDirectDyn = true → fs.tDecOk S top = true → (top = true → base = 0) → d.length < S.maxLen →
      fs.GRepr S c ctx v ws → Agrees d (8 * (base + off) + start) ws →
      ∃ o : Nat, fs.tDsFields T start d base off = .ok (o : Int) ∧
        fs.tDecFields T ctx d start base off = .ok (fs.toT S ctx v, o) ∧
        8 * o + fs.sum = 8 * off + ws.length ∧ (fs.dynamic = false → o = off)
    | .nil, ctx, v, ws, start, base, top, d, off => by
      intro _ _ _ _ _ hr _
      simp only [Fields.GRepr] at hr
      exact ⟨off, rfl, rfl, by simp [hr, Fields.sum], fun _ => rfl⟩
    | .void n r, ctx, v, ws, start, base, top, d, off => by
      intro hw hn hk ht hd hr h
      obtain ⟨ws', hr, hws⟩ := hr
      rw [hws] at h
      obtain ⟨h1, h2⟩ := Agrees.append.mp h
      rw [List.length_replicate, Nat.add_assoc] at h2
      obtain ⟨o, e1, e2, l, q⟩ := Fields.tDec_agrees E c r ctx v ws' (start + n) base top d off (by simpa [Fields.wf] using hw)
        (by simpa [Fields.noDirectDyn] using hn) (by simpa [Fields.tDecOk] using hk) ht hd hr h2
      refine ⟨o, by simp only [Fields.tDsFields, e1], by simp only [Fields.tDecFields]; exact e2, ?_, q⟩
      simp only [hws, Fields.sum, List.length_append, List.length_replicate]; omega
    | .const p n big val r, ctx, v, ws, start, base, top, d, off => by
      intro hw hn hk ht hd hr h
      obtain ⟨ws', hr, hws⟩ := hr
      rw [hws] at h
      obtain ⟨h1, h2⟩ := Agrees.append.mp h
      rw [scWire_length, Nat.add_assoc] at h2
      simp only [Fields.wf, Bool.and_eq_true, decide_eq_true_eq] at hw
      obtain ⟨⟨⟨⟨⟨⟨w1, w2⟩, w3⟩, w4⟩, w5⟩, w6⟩, w7⟩ := hw
      have hb : big = true → n = p.width := by
        intro hb; rw [hb] at w6; simpa using w6
      simp only [Fields.tDecOk, Bool.and_eq_true] at hk
      obtain ⟨o, e1, e2, l, q⟩ := Fields.tDec_agrees E c r ctx v ws' (start + n) base top d off w7
        (by simpa [Fields.noDirectDyn] using hn) hk.2 ht hd hr h2
      have e3 := E.const p n big val start (base + off) d w2 w3 hb w5 hk.1 hd h1
      refine ⟨o, by simp only [Fields.tDsFields, e1], ?_, ?_, q⟩
      · simp only [Fields.tDecFields, e3]
        exact e2
      · simp only [hws, Fields.sum, List.length_append, scWire_length]; omega
    | .one t bits big r, ctx, v, ws, start, base, top, d, off => by
      intro hw hn hk ht hd hr h
      obtain ⟨n1, n2, n3⟩ := noDirectDyn_bits hw hn
      obtain ⟨h1, h2, h3, h4, h5⟩ := wf_one hw
      obtain ⟨v1, v2⟩ := v
      obtain ⟨w1, w2, hr1, hr2, hws⟩ := hr
      simp only at hr1 hr2
      simp only [Fields.tDecOk, Bool.and_eq_true] at hk
      have hb0 : t.dynamic = true → bits = none := by
        intro ht
        rw [ht] at n3
        simpa using n3
      have hgap : (if t.dynamic = true then List.replicate (bits.getD 0) none else ([] : List (Option Bool))) = [] := by
        cases ht : t.dynamic
        · simp
        · simp [hb0 ht]
      rw [hgap, List.append_nil] at hws
      rw [hws] at h
      obtain ⟨a1, a2⟩ := Agrees.append.mp h
      obtain ⟨o1, s1, e1, l1, q1⟩ := Ty.tDec_agrees E c t (.one t bits big r :: ctx) big false false false v1 w1 start (bits.getD 0) base d off
        h1 h3 n1 hk.1 (fun _ _ => rfl) hd hr1 a1
      have hpos : 8 * (base + off) + start + w1.length = 8 * (base + o1) + (start + bits.getD 0) := by
        by_cases ht : t.dynamic = true
        · have := hb0 ht
          subst this
          rw [if_pos ht] at h4
          simp only [Option.getD_none] at *
          omega
        · rw [if_neg ht] at h4
          omega
      rw [hpos] at a2
      obtain ⟨o, s2, e2, l2, q2⟩ := Fields.tDec_agrees E c r ctx v2 w2 (start + bits.getD 0) base top d o1 h2 n2 hk.2 ht hd hr2 a2
      refine ⟨o, ?_, ?_, ?_, ?_⟩
      · simp only [Fields.tDsFields, n3]
        by_cases ht : t.dynamic = true
        · rw [if_pos ht]
          have := s1 ht
          rw [hb0 ht] at s2
          simp only [this]
          exact s2
        · rw [if_neg ht]
          have := q1 (by simpa using ht)
          subst this
          exact s2
      · simp only [Fields.tDecFields, e1, e2, Fields.toT]
      · simp only [hws, Fields.sum, List.length_append]; omega
      · intro hdyn
        simp only [Fields.dynamic, Bool.or_eq_false_iff] at hdyn
        rw [q2 hdyn.2, q1 hdyn.1]
    | .arr t len bits big r, ctx, v, ws, start, base, top, d, off => by
      intro hw hn hk ht hd hr h
      obtain ⟨h0, h1, h2, h3, h4, h5, h7, h6⟩ := wf_arr hw
      have hbn : bits.isNone = t.dynamic := by
        cases ht : t.dynamic
        · cases hb : bits with
          | none => rw [h7.mp hb] at ht; cases ht
          | some n => rfl
        · rw [h7.mpr ht]; rfl
      obtain ⟨v1, v2⟩ := v
      obtain ⟨wss, w2, hl, hr1, hr2, hws⟩ := hr
      simp only at hl hr1 hr2
      rw [hws] at h
      obtain ⟨a1, a2⟩ := Agrees.append.mp h
      simp only [Fields.noDirectDyn, Bool.and_eq_true] at hn
      simp only [Fields.tDecOk, Bool.and_eq_true] at hk
      obtain ⟨⟨k1, k2⟩, k4⟩ := hk
      have hlb : T.loop len = true → t.dynamic = false → T.loopBase base = base := by
        intro a b
        simp only [a, b, Bool.not_true, Bool.or_false, Bool.or_eq_true] at k4
        rcases k4 with k | k
        · exact E.loopBase k base
        · rw [ht k]; exact E.loopBase0
      have hz : t.dynamic = true → bits.getD 0 / len = 0 := by
        intro ht; rw [h7.mpr ht]; simp
      obtain ⟨o1, s1, e1, l1, q1⟩ := tDecIdx_agrees (fun x => t.toT S (.arr t len bits big r :: ctx) x)
        (tArrElemDec T t (.arr t len bits big r :: ctx)
          (fun start n base off => t.tDec T (.arr t len bits big r :: ctx) big true d start n base off)
          len (bits.getD 0 / len) start base big d)
        (fun off => t.tDsElem T (start / 8) d base off) t.dynamic d base (bits.getD 0 / len) start hr1
        (fun x w hx i off hag => by
          have hrec : (∀ s, t = .sc s → T.loop len = false) → ∃ o : Nat,
              (t.dynamic = true → t.tDsElem T (start / 8) d base off = .ok (o : Int)) ∧
              t.tDec T (.arr t len bits big r :: ctx) big true d (start + i * (bits.getD 0 / len)) (bits.getD 0 / len) base off =
                .ok (t.toT S (.arr t len bits big r :: ctx) x, o) ∧
              8 * o + bits.getD 0 / len = 8 * off + w.length ∧ (t.dynamic = false → o = off) := by
            intro hsl
            obtain ⟨o, s, e, l, q⟩ := Ty.tDec_agrees E c t (.arr t len bits big r :: ctx) big true (T.loop len) (c.useLoop len) x w
              (start + i * (bits.getD 0 / len)) (bits.getD 0 / len) base d off h1 (h3 i) hn.1 k1 hsl hd hx hag
            rw [h4] at l
            refine ⟨o, fun hdy => ?_, e, l, q⟩
            have := s hdy
            rw [hz hdy, Nat.mul_zero, Nat.add_zero] at this
            exact this
          unfold tArrElemDec
          cases hlp : T.loop len with
          | false =>
            obtain ⟨o, s, e, l, q⟩ := hrec (fun _ _ => hlp)
            exact ⟨o, s, by simpa only [Bool.false_eq_true, if_false] using e, l, q⟩
          | true =>
            simp only [if_true]
            cases t with
            | sc s =>
              have h0 := h3 i
              simp only [Ty.elemOk] at h0
              obtain ⟨⟨hf, hsl⟩, hr⟩ := hx
              have hln := Sc.GRepr_length hr
              rw [hlp] at hf hsl
              have e := E.scLoop (.arr (.sc s) len bits big r :: ctx) s big d (start + i * (bits.getD 0 / len)) (bits.getD 0 / len) (base + off)
                x (c.useLoop len) w h0.1 (h0.2 trivial) hf hsl hr hd hag
              refine ⟨off, by simp [Ty.dynamic], ?_, by rw [hln], fun _ => rfl⟩
              simp only [hlb hlp rfl, e]
              rfl
            | str =>
              obtain ⟨o, s, e, l, q⟩ := hrec (fun s h => by cases h)
              rw [hz rfl, Nat.mul_zero, Nat.add_zero] at e
              exact ⟨o, s, by rw [hz rfl]; exact e, l, q⟩
            | bytes =>
              obtain ⟨o, s, e, l, q⟩ := hrec (fun s h => by cases h)
              rw [hz rfl, Nat.mul_zero, Nat.add_zero] at e
              exact ⟨o, s, by rw [hz rfl]; exact e, l, q⟩
            | struct fs =>
              obtain ⟨o, s, e, l, q⟩ := hrec (fun s h => by cases h)
              refine ⟨o, s, ?_, l, q⟩
              by_cases hdyn : fs.dynamic = true
              · simp only [if_pos hdyn]
                rw [hz hdyn, Nat.mul_zero, Nat.add_zero] at e
                rw [hz hdyn]; exact e
              · simp only [if_neg hdyn]
                obtain ⟨h1, h2⟩ := h6 fs rfl
                have e8 : 8 * (start / 8 + i * (bits.getD 0 / len / 8)) = start + i * (bits.getD 0 / len) := by
                  have : i * (bits.getD 0 / len) = 8 * (i * (bits.getD 0 / len / 8)) := by
                    have h3 : bits.getD 0 / len = 8 * (bits.getD 0 / len / 8) := by omega
                    calc i * (bits.getD 0 / len) = i * (8 * (bits.getD 0 / len / 8)) := by rw [← h3]
                      _ = 8 * (i * (bits.getD 0 / len / 8)) := by rw [Nat.mul_left_comm]
                  omega
                rw [e8, hlb hlp (by simpa [Ty.dynamic] using hdyn)]
                exact e)
        0 off (by simpa using a1)
      rw [hl] at s1 e1 l1
      rw [h5] at l1
      have hpos : 8 * (base + off) + start + wss.flatten.length = 8 * (base + o1) + (start + bits.getD 0) := by omega
      rw [hpos] at a2
      obtain ⟨o, s2, e2, l2, q2⟩ := Fields.tDec_agrees E c r ctx v2 w2 (start + bits.getD 0) base top d o1 h2 hn.2 k2 ht hd hr2 a2
      refine ⟨o, ?_, ?_, ?_, ?_⟩
      · simp only [Fields.tDsFields, hbn]
        by_cases ht : t.dynamic = true
        · rw [if_pos ht]
          rw [h7.mpr ht] at s2
          simp only [s1 ht]
          exact s2
        · rw [if_neg ht]
          have := q1 (by simpa using ht)
          subst this
          exact s2
      · simp only [Fields.tDecFields, e1, e2, Fields.toT]
      · simp only [hws, Fields.sum, List.length_append]; omega
      · intro hdyn
        simp only [Fields.dynamic, Bool.or_eq_false_iff] at hdyn
        rw [q2 hdyn.2, q1 hdyn.1]
end

/-- `decode(data, start)` and `decode_size(data, start)` on a representation of a message. -/
theorem Fields.tDecode_of_repr (E : S.DecOk) (c : Cfg) {fs : Fields} (h : fs.accepted = true) (hn : fs.noDirectDyn = true)
    {top : Bool} (hk : fs.tDecOk S top = true) {base : Nat} (ht : top = true → base = 0) {d : Buf} (hd : d.length < S.maxLen)
    {v : fs.Val} {ws : List (Option Bool)} (hr : fs.GRepr S c [] v ws) (hag : Agrees d (8 * base) ws) :
    ∃ n : Nat, fs.tDecode T d base = .ok (fs.toT S [] v, n) ∧ fs.tDecodeSize T d base = some (n : Int) ∧ 8 * n = ws.length := by
  obtain ⟨h1, h2, _, _⟩ := Fields.accepted_facts h
  obtain ⟨o, e1, e2, l, q⟩ := Fields.tDec_agrees E c fs [] v ws 0 base top d 0 h1 hn hk ht hd hr (by simpa using hag)
  have hle := hag.1
  have hsz := Fields.tDecodeSize_of E (fs := fs) (base := base) (o := o) hd e1 q (by omega)
  refine ⟨o + fs.sum / 8, ?_, hsz, by omega⟩
  simp only [Fields.tDecode, Fields.tCheck_of hsz, e2]

end Bubbler
