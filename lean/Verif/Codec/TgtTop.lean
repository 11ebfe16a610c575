import Verif.Codec.TgtDec
import Verif.Codec.KtTop

/-
The targets of TgtMsg.lean against Go: what follows from `EncOk` and `DecOk`.
-/
set_option linter.unusedSimpArgs false
namespace Bubbler

mutual
  /-- The Go values a target represents and reads correctly. -/
  def Ty.DFits {T : Tgt} (S : TgtDecSpec T) : (t : Ty) → List Fields → (tl : Bool) → Nat → t.Val → Prop
    | .sc s, ctx, tl, n, (x : BitVec s.width) => S.fitSc ctx s tl n x
    | .str, _, _, _, (x : List Byte) => S.fitStr x
    | .bytes, _, _, _, _ => True
    | .struct fs, ctx, _, _, v => fs.DFits S ctx v
  def Fields.DFits {T : Tgt} (S : TgtDecSpec T) : (fs : Fields) → List Fields → fs.Val → Prop
    | .nil, _, _ => True
    | .void _ r, ctx, v => r.DFits S ctx v
    | .const _ _ _ _ r, ctx, v => r.DFits S ctx v
    | .one t bits big r, ctx, (v : t.Val × r.Val) =>
      t.DFits S (.one t bits big r :: ctx) false (bits.getD 0) v.1 ∧ r.DFits S ctx v.2
    | .arr t len bits big r, ctx, (v : List t.Val × r.Val) =>
      (∀ x ∈ v.1, t.DFits S (.arr t len bits big r :: ctx) (T.loop len) (bits.getD 0 / len) x) ∧ r.DFits S ctx v.2
end

variable {T : Tgt}

/-- Prefixes no longer than the ones encoders write are read correctly. -/
def TgtDecSpec.LenOk (S : TgtDecSpec T) : Prop :=
  ∀ (bs : List Byte) (n : Nat), leb bs = some n → bs.length ≤ (varint n).length → n < S.maxLen → S.fitLen bs n n

theorem all2_short' {α : Type} {R K : α → List (Option Bool) → Prop} {W : α → List (Option Bool)} {xs : List α}
    {wss : List (List (Option Bool))}
    (hf : ∀ x, x ∈ xs → ∀ w, R x w → w.length ≤ wss.flatten.length →
      (W x).length ≤ w.length ∧ (w.length = (W x).length → K x w)) (h : All2 R xs wss) :
    ((xs.map W).flatten).length ≤ wss.flatten.length ∧
      (wss.flatten.length = ((xs.map W).flatten).length → All2 K xs wss) := by
  induction h with
  | nil => exact ⟨by simp, fun _ => .nil⟩
  | @cons x w xs wss hx _ ih =>
    simp only [List.flatten_cons, List.length_append] at hf
    obtain ⟨a1, a2⟩ := hf x (by simp) w hx (by omega)
    obtain ⟨b1, b2⟩ := ih (fun y hy u hu hl => hf y (by simp [hy]) u hu (by omega))
    simp only [List.map_cons, List.flatten_cons, List.length_append]
    exact ⟨by omega, fun e => .cons (a2 (by omega)) (b2 (by omega))⟩

mutual
  /-- A representation for Go that is as short as the wire form is one for the target. -/
  theorem Ty.gRepr_short {S : TgtDecSpec T} (hS : S.LenOk) (cg : Cfg) (hL : S.Loops cg) : ∀ (t : Ty) (ctx : List Fields) (tl gl big : Bool) (n : Nat) (v : t.Val)
      (ws : List (Option Bool)), ws.length < 8 * S.maxLen → (S.sameLoop = true → gl = tl) → t.DFits S ctx tl n v → t.Repr cg gl n big v ws →
      (t.wire n big v).length ≤ ws.length ∧ (ws.length = (t.wire n big v).length → t.GRepr S cg ctx tl gl n big v ws)
    | .sc s, ctx, tl, gl, big, n, (v : BitVec s.width), ws => by
      intro _ hsl hf h
      have h : s.GRepr gl n big v ws := h
      refine ⟨?_, fun _ => ⟨⟨hf, hsl⟩, h⟩⟩
      simp only [Ty.wire, scWire_length]
      rw [Sc.GRepr_length h]; exact Nat.le_refl _
    | .str, ctx, tl, gl, big, n, (v : List Byte), ws => by
      intro _ _ hf h
      exact ⟨by rw [h.2]; exact Nat.le_refl _, fun _ => ⟨hf, h⟩⟩
    | .bytes, ctx, tl, gl, big, n, (v : List Byte), ws => by
      intro hl _ _ h
      obtain ⟨bs, h1, h2, h3⟩ := h
      subst h3
      have hle := varint_len_le_leb h1 (Nat.le_refl _)
      rw [byteWire_length, List.length_append] at hl
      simp only [Ty.wire, byteWire_length, List.length_append]
      exact ⟨by omega, fun e => ⟨bs, v.length, h1, hS bs v.length h1 (by omega) (by omega), rfl⟩⟩
    | .struct fs, ctx, tl, gl, big, n, v, ws => by
      intro hl _ hf h
      exact Fields.gRepr_short hS cg hL fs ctx v ws hl hf h
  theorem Fields.gRepr_short {S : TgtDecSpec T} (hS : S.LenOk) (cg : Cfg) (hL : S.Loops cg) : ∀ (fs : Fields) (ctx : List Fields) (v : fs.Val)
      (ws : List (Option Bool)), ws.length < 8 * S.maxLen → fs.DFits S ctx v → fs.Repr cg v ws →
      (fs.wire v).length ≤ ws.length ∧ (ws.length = (fs.wire v).length → fs.GRepr S cg ctx v ws)
    | .nil, ctx, v, ws => by
      intro _ _ h
      exact ⟨by simp [Fields.wire], fun _ => h⟩
    | .void n r, ctx, v, ws => by
      intro hl hf h
      obtain ⟨w, h1, h2⟩ := h
      subst h2
      rw [List.length_append] at hl
      obtain ⟨a1, a2⟩ := Fields.gRepr_short hS cg hL r ctx v w (by omega) hf h1
      simp only [Fields.wire, List.length_append]
      exact ⟨by omega, fun e => ⟨w, a2 (by omega), rfl⟩⟩
    | .const pr n big val r, ctx, v, ws => by
      intro hl hf h
      obtain ⟨w, h1, h2⟩ := h
      subst h2
      rw [List.length_append] at hl
      obtain ⟨a1, a2⟩ := Fields.gRepr_short hS cg hL r ctx v w (by omega) hf h1
      simp only [Fields.wire, List.length_append]
      exact ⟨by omega, fun e => ⟨w, a2 (by omega), rfl⟩⟩
    | .one t bits big r, ctx, (v : t.Val × r.Val), ws => by
      intro hl hf h
      obtain ⟨w1, w2, h1, h2, h3⟩ := h
      subst h3
      simp only [List.length_append] at hl
      obtain ⟨a1, a2⟩ := Ty.gRepr_short hS cg hL t (.one t bits big r :: ctx) false false big _ v.1 w1 (by omega) (fun _ => rfl) hf.1 h1
      obtain ⟨b1, b2⟩ := Fields.gRepr_short hS cg hL r ctx v.2 w2 (by omega) hf.2 h2
      simp only [Fields.wire, List.length_append]
      exact ⟨by omega, fun e => ⟨w1, w2, a2 (by omega), b2 (by omega), rfl⟩⟩
    | .arr t len bits big r, ctx, (v : List t.Val × r.Val), ws => by
      intro hl hf h
      obtain ⟨wss, w2, h0, h1, h2, h3⟩ := h
      subst h3
      simp only [List.length_append] at hl
      obtain ⟨a1, a2⟩ := all2_short' (W := fun x => t.wire (bits.getD 0 / len) big x)
        (K := fun x w => t.GRepr S cg (.arr t len bits big r :: ctx) (T.loop len) (cg.useLoop len) (bits.getD 0 / len) big x w)
        (fun x hx w hk hw => Ty.gRepr_short hS cg hL t (.arr t len bits big r :: ctx) (T.loop len) (cg.useLoop len) big
          (bits.getD 0 / len) x w (by omega) (fun h => hL h len) (hf.1 x hx) hk) h1
      obtain ⟨b1, b2⟩ := Fields.gRepr_short hS cg hL r ctx v.2 w2 (by omega) hf.2 h2
      simp only [Fields.wire, List.length_append]
      exact ⟨by omega, fun e => ⟨wss, w2, h0, a2 (by omega), b2 (by omega), rfl⟩⟩
end

/-- Prefixes Go accepts are read correctly. -/
def TgtDecSpec.LenAny (S : TgtDecSpec T) : Prop :=
  ∀ (bs : List Byte) (n : Nat), leb bs = some n → bs.length ≤ 9 → n < S.maxLen → S.fitLen bs n n

theorem all2_imp {α : Type} {R K : α → List (Option Bool) → Prop} {xs : List α} {wss : List (List (Option Bool))}
    (hf : ∀ x, x ∈ xs → ∀ w, R x w → w.length ≤ wss.flatten.length → K x w) (h : All2 R xs wss) : All2 K xs wss := by
  induction h with
  | nil => exact .nil
  | @cons x w xs wss hx _ ih =>
    simp only [List.flatten_cons, List.length_append] at hf
    exact .cons (hf x (by simp) w hx (by omega)) (ih (fun y hy u hu hl => hf y (by simp [hy]) u hu (by omega)))

mutual
  /-- A representation for Go is one for the target. -/
  theorem Ty.gRepr_of_repr {S : TgtDecSpec T} (hS : S.LenAny) (cg : Cfg) (hL : S.Loops cg) : ∀ (t : Ty) (ctx : List Fields) (tl gl big : Bool) (n : Nat) (v : t.Val)
      (ws : List (Option Bool)), ws.length < 8 * S.maxLen → (S.sameLoop = true → gl = tl) → t.DFits S ctx tl n v → t.Repr cg gl n big v ws →
      t.GRepr S cg ctx tl gl n big v ws
    | .sc s, ctx, tl, gl, big, n, (v : BitVec s.width), ws => by
      intro _ hsl hf h
      have h : s.GRepr gl n big v ws := h
      exact ⟨⟨hf, hsl⟩, h⟩
    | .str, ctx, tl, gl, big, n, (v : List Byte), ws => by
      intro _ _ hf h
      exact ⟨hf, h⟩
    | .bytes, ctx, tl, gl, big, n, (v : List Byte), ws => by
      intro hl _ _ h
      obtain ⟨bs, h1, h2, h3⟩ := h
      subst h3
      rw [byteWire_length, List.length_append] at hl
      exact ⟨bs, v.length, h1, hS bs v.length h1 h2 (by omega), rfl⟩
    | .struct fs, ctx, tl, gl, big, n, v, ws => by
      intro hl _ hf h
      exact Fields.gRepr_of_repr hS cg hL fs ctx v ws hl hf h
  theorem Fields.gRepr_of_repr {S : TgtDecSpec T} (hS : S.LenAny) (cg : Cfg) (hL : S.Loops cg) : ∀ (fs : Fields) (ctx : List Fields) (v : fs.Val)
      (ws : List (Option Bool)), ws.length < 8 * S.maxLen → fs.DFits S ctx v → fs.Repr cg v ws → fs.GRepr S cg ctx v ws
    | .nil, ctx, v, ws => fun _ _ h => h
    | .void n r, ctx, v, ws => by
      intro hl hf h
      obtain ⟨w, h1, h2⟩ := h
      subst h2
      rw [List.length_append] at hl
      exact ⟨w, Fields.gRepr_of_repr hS cg hL r ctx v w (by omega) hf h1, rfl⟩
    | .const pr n big val r, ctx, v, ws => by
      intro hl hf h
      obtain ⟨w, h1, h2⟩ := h
      subst h2
      rw [List.length_append] at hl
      exact ⟨w, Fields.gRepr_of_repr hS cg hL r ctx v w (by omega) hf h1, rfl⟩
    | .one t bits big r, ctx, (v : t.Val × r.Val), ws => by
      intro hl hf h
      obtain ⟨w1, w2, h1, h2, h3⟩ := h
      subst h3
      simp only [List.length_append] at hl
      exact ⟨w1, w2, Ty.gRepr_of_repr hS cg hL t (.one t bits big r :: ctx) false false big _ v.1 w1 (by omega) (fun _ => rfl) hf.1 h1,
        Fields.gRepr_of_repr hS cg hL r ctx v.2 w2 (by omega) hf.2 h2, rfl⟩
    | .arr t len bits big r, ctx, (v : List t.Val × r.Val), ws => by
      intro hl hf h
      obtain ⟨wss, w2, h0, h1, h2, h3⟩ := h
      subst h3
      simp only [List.length_append] at hl
      exact ⟨wss, w2, h0, all2_imp (fun x hx w hk hw => Ty.gRepr_of_repr hS cg hL t (.arr t len bits big r :: ctx) (T.loop len) (cg.useLoop len) big
          (bits.getD 0 / len) x w (by omega) (fun h => hL h len) (hf.1 x hx) hk) h1,
        Fields.gRepr_of_repr hS cg hL r ctx v.2 w2 (by omega) hf.2 h2, rfl⟩
end

/-! ### encode -/

/-- `encode` of the target and of Go write the same. -/
theorem Fields.t_encode_agrees {S : TgtSpec T} (E : S.EncOk) (cg : Cfg) {fs : Fields} (hacc : fs.accepted = true)
    {top : Bool} (hk : fs.tOk S top 0 = true) (v : fs.TVal T) (hv : fs.TLegal S [] v) :
    fs.tEncodeSize T v = fs.encodeSize (fs.ofT S [] v) ∧
    (∀ (d : Buf) (base : Nat), (top = true → base = 0) → base + fs.tEncodeSize T v ≤ d.length → d.length < S.maxLen →
      ZeroFrom d (8 * base) →
      fs.tEncodeTo T v d base = (fs.encodeTo cg (fs.ofT S [] v) (d.drop base)).map (fun r => (d.take base ++ r.1, r.2))) ∧
    (T.alloc (fs.tEncodeSize T v) = true → fs.tEncodeSize T v < S.maxLen → fs.tEncode T v = fs.encode cg (fs.ofT S [] v)) := by
  have hsz := Fields.tEncodeSize_eq E fs [] v hv
  have key : ∀ (d : Buf) (base : Nat), (top = true → base = 0) → base + fs.tEncodeSize T v ≤ d.length → d.length < S.maxLen →
      ZeroFrom d (8 * base) →
      fs.tEncodeTo T v d base = (fs.encodeTo cg (fs.ofT S [] v) (d.drop base)).map (fun r => (d.take base ++ r.1, r.2)) := by
    intro d base ht hb hL hz
    obtain ⟨d1, e1, o1⟩ := Fields.tEncodeTo_spec E hacc hk hv ht hL hz hb
    obtain ⟨_, d2, e2, o2⟩ := Fields.encodeTo_spec cg hacc (Fields.TLegal.valid E cg false fs [] v hv) (d := d.drop base)
      (by rw [List.length_drop]; omega)
    have o3 := o2.sub (show base ≤ d.length by omega)
    rw [Nat.add_zero] at o3
    have := o1.unique o3
    subst this
    rw [e1, e2, hsz]; rfl
  refine ⟨hsz, key, ?_⟩
  intro ha hL
  have h0 := key (List.replicate (fs.tEncodeSize T v) 0#8) 0 (fun _ => rfl) (by simp) (by simpa using hL)
    (by
      intro i _
      unfold bitAt
      by_cases hi : i / 8 < fs.tEncodeSize T v
      · simp [List.getD_eq_getElem?_getD, List.getElem?_replicate, hi]
      · simp [List.getD_eq_getElem?_getD, List.getElem?_replicate, hi])
  obtain ⟨_, d2, e2, _⟩ := Fields.encodeTo_spec cg hacc (Fields.TLegal.valid E cg false fs [] v hv)
    (d := List.replicate (fs.encodeSize (fs.ofT S [] v)) 0#8) (by simp)
  rw [hsz] at ha
  simp only [Fields.tEncode, Fields.encode]
  rw [hsz] at h0 ⊢
  rw [if_pos ha, h0, List.drop_zero, e2]
  simp

/-! ### decode -/

/-- On data Go accepts as a canonically encoded message, the target reads the same. -/
theorem Fields.t_decode_canonical {S : TgtDecSpec T} (E : S.DecOk) (hS : S.LenOk) (cg : Cfg) (hL : S.Loops cg) {fs : Fields} (hacc : fs.accepted = true)
    (hn : fs.noDirectDyn = true) {top : Bool} (hk : fs.tDecOk S top = true)
    (d : Buf) (hd : d.length < S.maxLen) (hM : S.maxLen ≤ 2 ^ 62) (base : Nat) (ht : top = true → base = 0) (hb : base ≤ d.length)
    (hw : fs.NoWrap (d.drop base)) {v : fs.Val} {n : Nat}
    (hg : fs.decode cg (d.drop base) = .ok (v, n)) (hcan : n = fs.encodeSize v) (hf : fs.DFits S [] v) :
    fs.tDecode T d base = .ok (fs.toT S [] v, n) ∧ fs.tDecodeSize T d base = some (n : Int) := by
  have hdl : (d.drop base).length < 2 ^ 62 := by rw [List.length_drop]; omega
  obtain ⟨ws, r1, r2, r3⟩ := (Fields.decode_iff cg hacc hn hdl hw v n).mp hg
  rw [Agrees.drop hb, Nat.add_zero] at r2
  have hl := r2.length_le
  have hv := (Fields.Repr_ok cg fs 0 v ws (Fields.accepted_facts hacc).1 r1).1
  have h8 : 8 * fs.encodeSize v = (fs.wire v).length :=
    (Fields.encodeTo_spec cg hacc hv (d := List.replicate (fs.encodeSize v) 0#8) (by simp)).1
  obtain ⟨_, h2⟩ := Fields.gRepr_short hS cg hL fs [] v ws (by omega) hf r1
  obtain ⟨m, e1, e2, e3⟩ := Fields.tDecode_of_repr E cg hacc hn hk ht hd (h2 (by omega)) r2
  have : m = n := by omega
  subst this
  exact ⟨e1, e2⟩

/-- On data Go accepts, canonically encoded or not, the target reads the same. -/
theorem Fields.t_decode_go {S : TgtDecSpec T} (E : S.DecOk) (hS : S.LenAny) (cg : Cfg) (hL : S.Loops cg) {fs : Fields} (hacc : fs.accepted = true)
    (hn : fs.noDirectDyn = true) {top : Bool} (hk : fs.tDecOk S top = true)
    (d : Buf) (hd : d.length < S.maxLen) (hM : S.maxLen ≤ 2 ^ 62) (base : Nat) (ht : top = true → base = 0) (hb : base ≤ d.length)
    (hw : fs.NoWrap (d.drop base)) {v : fs.Val} {n : Nat}
    (hg : fs.decode cg (d.drop base) = .ok (v, n)) (hf : fs.DFits S [] v) :
    fs.tDecode T d base = .ok (fs.toT S [] v, n) ∧ fs.tDecodeSize T d base = some (n : Int) := by
  have hdl : (d.drop base).length < 2 ^ 62 := by rw [List.length_drop]; omega
  obtain ⟨ws, r1, r2, r3⟩ := (Fields.decode_iff cg hacc hn hdl hw v n).mp hg
  rw [Agrees.drop hb, Nat.add_zero] at r2
  have hl := r2.length_le
  obtain ⟨m, e1, e2, e3⟩ := Fields.tDecode_of_repr E cg hacc hn hk ht hd (Fields.gRepr_of_repr hS cg hL fs [] v ws (by omega) hf r1) r2
  have : m = n := by omega
  subst this
  exact ⟨e1, e2⟩

/-- What Go encodes, the target decodes. -/
theorem Fields.t_from_go {S : TgtDecSpec T} (E : S.DecOk) (hS : S.LenOk) (cg : Cfg) (hL : S.Loops cg) {fs : Fields} (hacc : fs.accepted = true)
    (hn : fs.noDirectDyn = true) {top : Bool} (hk : fs.tDecOk S top = true)
    (v : fs.Val) (hv : fs.Valid cg false v) (hr : fs.InRange v) (hf : fs.DFits S [] v) (pre rest : Buf)
    (ht : top = true → pre = []) (hsz : pre.length + fs.encodeSize v + rest.length < S.maxLen) :
    ∃ d, fs.encode cg v = some d ∧ d.length = fs.encodeSize v ∧
      fs.tDecode T (pre ++ d ++ rest) pre.length = .ok (fs.toT S [] v, d.length) ∧
      fs.tDecodeSize T (pre ++ d ++ rest) pre.length = some (d.length : Int) := by
  obtain ⟨d, g1, g2, g3, _, g5⟩ := Fields.encode_spec cg hacc hv
  have hrep := Fields.wire_repr cg fs 0 v (Fields.accepted_facts hacc).1 hv hr
  have ha : Agrees (pre ++ d ++ rest) (8 * pre.length) (fs.wire v) := by
    rw [← Nat.add_zero (8 * pre.length), ← Agrees.drop (by simp), List.append_assoc, List.drop_left]
    exact g5.append_right
  have hk2 := (Fields.gRepr_short hS cg hL fs [] v _ (by omega) hf hrep).2 rfl
  obtain ⟨n, h1, h2, h3⟩ := Fields.tDecode_of_repr E cg hacc hn hk (base := pre.length) (fun h => by rw [ht h]; rfl)
    (by simp only [List.length_append]; omega) hk2 ha
  have : n = d.length := by omega
  subst this
  exact ⟨d, g1, by omega, h1, h2⟩

/-! ### Both -/

/-- The scalars and strings of the target that survive encoding and decoding. -/
structure TgtGood (T : Tgt) where
  sc : List Fields → (s : Sc) → (lp : Bool) → (n : Nat) → T.SVal s → Prop
  str : T.Str → Prop
  maxBytes : Nat

mutual
  /-- Values of the target that survive encoding and decoding. -/
  def Ty.TFits (G : TgtGood T) : (t : Ty) → List Fields → (tl : Bool) → Nat → t.TVal T → Prop
    | .sc s, ctx, tl, n, (x : T.SVal s) => G.sc ctx s tl n x
    | .str, _, _, _, (x : T.Str) => G.str x
    | .bytes, _, _, _, (x : List Byte) => x.length < G.maxBytes
    | .struct fs, ctx, _, _, v => fs.TFits G ctx v
  def Fields.TFits (G : TgtGood T) : (fs : Fields) → List Fields → fs.TVal T → Prop
    | .nil, _, _ => True
    | .void _ r, ctx, v => r.TFits G ctx v
    | .const _ _ _ _ r, ctx, v => r.TFits G ctx v
    | .one t bits big r, ctx, (v : t.TVal T × r.TVal T) =>
      t.TFits G (.one t bits big r :: ctx) false (bits.getD 0) v.1 ∧ r.TFits G ctx v.2
    | .arr t len bits big r, ctx, (v : List (t.TVal T) × r.TVal T) =>
      v.1.length = len ∧ (∀ x ∈ v.1, t.TFits G (.arr t len bits big r :: ctx) (T.loop len) (bits.getD 0 / len) x) ∧ r.TFits G ctx v.2
end

/-- What `good` leaves satisfy. -/
structure TgtGood.Ok (G : TgtGood T) (S : TgtSpec T) (D : TgtDecSpec T) : Prop where
  maxBytes : G.maxBytes ≤ S.maxBytes
  sc : ∀ ctx s lp n x, s.wf n = true → G.sc ctx s lp n x →
    S.legalSc ctx s x ∧ s.InRange n (S.ofSc ctx s x) ∧ D.fitSc ctx s lp n (S.ofSc ctx s x) ∧ D.toSc ctx s (S.ofSc ctx s x) = x
  str : ∀ x, G.str x → S.legalStr x ∧ 0#8 ∉ S.ofStr x ∧ D.fitStr (S.ofStr x) ∧ D.toStr (S.ofStr x) = x

mutual
  theorem Ty.TFits.facts {G : TgtGood T} {S : TgtSpec T} {D : TgtDecSpec T} (K : G.Ok S D) : ∀ (t : Ty) (ctx : List Fields)
      (arr tl : Bool) (start n : Nat) (v : t.TVal T), t.wf = true → t.elemOk arr start n → t.TFits G ctx tl n v →
      t.TLegal S ctx v ∧ t.InRange n (t.ofT S ctx v) ∧ t.DFits D ctx tl n (t.ofT S ctx v) ∧ t.toT D ctx (t.ofT S ctx v) = v
    | .sc s, ctx, arr, tl, start, n, (v : T.SVal s) => by
      intro _ hok h
      exact K.sc ctx s tl n v hok.1 h
    | .str, ctx, arr, tl, start, n, (v : T.Str) => by
      intro _ _ h
      exact K.str v h
    | .bytes, ctx, arr, tl, start, n, (v : List Byte) => by
      intro _ _ h
      have h : v.length < G.maxBytes := h
      exact ⟨Nat.lt_of_lt_of_le h K.maxBytes, trivial, trivial, rfl⟩
    | .struct fs, ctx, arr, tl, start, n, v => by
      intro hw _ h
      simp only [Ty.wf, Bool.and_eq_true] at hw
      exact Fields.TFits.facts K fs ctx 0 v hw.1 h
  theorem Fields.TFits.facts {G : TgtGood T} {S : TgtSpec T} {D : TgtDecSpec T} (K : G.Ok S D) : ∀ (fs : Fields) (ctx : List Fields)
      (start : Nat) (v : fs.TVal T), fs.wf start = true → fs.TFits G ctx v →
      fs.TLegal S ctx v ∧ fs.InRange (fs.ofT S ctx v) ∧ fs.DFits D ctx (fs.ofT S ctx v) ∧ fs.toT D ctx (fs.ofT S ctx v) = v
    | .nil, ctx, start, v => by intro _ _; exact ⟨trivial, trivial, trivial, rfl⟩
    | .void n r, ctx, start, v => by
      intro hw h
      simp only [Fields.wf] at hw
      exact Fields.TFits.facts K r ctx _ v hw h
    | .const p n big val r, ctx, start, v => by
      intro hw h
      simp only [Fields.wf, Bool.and_eq_true] at hw
      exact Fields.TFits.facts K r ctx _ v hw.2 h
    | .one t bits big r, ctx, start, (v : t.TVal T × r.TVal T) => by
      intro hw h
      obtain ⟨h1, h2, h3, _⟩ := wf_one hw
      obtain ⟨a1, a2, a3, a4⟩ := Ty.TFits.facts K t (.one t bits big r :: ctx) false false start (bits.getD 0) v.1 h1 h3 h.1
      obtain ⟨b1, b2, b3, b4⟩ := Fields.TFits.facts K r ctx _ v.2 h2 h.2
      refine ⟨⟨a1, b1⟩, ⟨a2, b2⟩, ⟨a3, b3⟩, ?_⟩
      simp only [Fields.ofT, Fields.toT, a4, b4]; rfl
    | .arr t len bits big r, ctx, start, (v : List (t.TVal T) × r.TVal T) => by
      intro hw h
      obtain ⟨h0, h1, h2, h3, _⟩ := wf_arr hw
      have a := fun x hx => Ty.TFits.facts K t (.arr t len bits big r :: ctx) true (T.loop len) start (bits.getD 0 / len) x h1
        (by simpa using h3 0) (h.2.1 x hx)
      obtain ⟨b1, b2, b3, b4⟩ := Fields.TFits.facts K r ctx _ v.2 h2 h.2.2
      refine ⟨⟨h.1, fun x hx => (a x hx).1, b1⟩, ⟨?_, b2⟩, ⟨?_, b3⟩, ?_⟩
      · intro x hx
        simp only [Fields.ofT] at hx
        obtain ⟨y, hy, rfl⟩ := List.mem_map.mp hx
        exact (a y hy).2.1
      · intro x hx
        simp only [Fields.ofT] at hx
        obtain ⟨y, hy, rfl⟩ := List.mem_map.mp hx
        exact (a y hy).2.2.1
      · simp only [Fields.ofT, Fields.toT, b4, List.map_map]
        have : (v.1.map ((fun x => t.toT D (.arr t len bits big r :: ctx) x) ∘ fun x => t.ofT S (.arr t len bits big r :: ctx) x)) = v.1 := by
          conv => rhs; rw [← List.map_id v.1]
          exact List.map_congr_left (fun x hx => (a x hx).2.2.2)
        rw [this]
end

/-- What the target encodes, both the target and Go decode. -/
theorem Fields.t_roundtrip {G : TgtGood T} {S : TgtSpec T} {D : TgtDecSpec T} (K : G.Ok S D) (E : S.EncOk) (F : D.DecOk) (hD : D.LenOk)
    (hM : D.maxLen ≤ S.maxLen) (hM2 : D.maxLen ≤ 2 ^ 62)
    (cg : Cfg) (hL : D.Loops cg) {fs : Fields} (hacc : fs.accepted = true) (hn : fs.noDirectDyn = true) {top : Bool} (hk : fs.tOk S top 0 = true)
    (hk2 : fs.tDecOk D top = true) (v : fs.TVal T) (hv : fs.TFits G [] v) (ha : T.alloc (fs.tEncodeSize T v) = true)
    (pre rest : Buf) (ht : top = true → pre = []) (hsz : pre.length + fs.tEncodeSize T v + rest.length < D.maxLen) :
    ∃ d, fs.tEncode T v = some d ∧ d.length = fs.tEncodeSize T v ∧
      fs.tDecode T (pre ++ d ++ rest) pre.length = .ok (v, d.length) ∧
      fs.tDecodeSize T (pre ++ d ++ rest) pre.length = some (d.length : Int) ∧ fs.decode cg (d ++ rest) = .ok (fs.ofT S [] v, d.length) := by
  obtain ⟨f1, f2, f3, f4⟩ := Fields.TFits.facts K fs [] 0 v (Fields.accepted_facts hacc).1 hv
  obtain ⟨e1, _, e3⟩ := Fields.t_encode_agrees E cg hacc hk v f1
  have hval := Fields.TLegal.valid E cg false fs [] v f1
  obtain ⟨d, g1, g2, g3, g4⟩ := Fields.t_from_go F hD cg hL hacc hn hk2 (fs.ofT S [] v) hval f2 f3 pre rest ht (by omega)
  obtain ⟨d', g1', _, g3', _, g5⟩ := Fields.encode_spec cg hacc hval
  rw [g1] at g1'
  cases g1'
  have hrep := Fields.wire_repr cg fs 0 (fs.ofT S [] v) (Fields.accepted_facts hacc).1 hval f2
  obtain ⟨m, h4, _, h5⟩ := Fields.decode_of_repr cg hacc hn (d := d ++ rest) (by simp only [List.length_append]; omega) hrep g5.append_right
  have : m = d.length := by omega
  rw [this] at h4
  rw [f4] at g3
  exact ⟨d, by rw [e3 ha (by omega)]; exact g1, by omega, g3, g4, h4⟩

end Bubbler
