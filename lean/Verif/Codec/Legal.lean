import Verif.Codec.Top

/-
Values a Go program can hold in the generated struct, independent of generator options, and the
append operation on field lists (used to talk about one field inside an arbitrary message).
-/
set_option linter.unusedSimpArgs false
namespace Bubbler

mutual
  /-- Legal Go values of the generated types: a bool is false or true, an array has its declared
  length, a byte slice has at most maxInt bytes. -/
  def Ty.Legal : (t : Ty) → t.Val → Prop
    | .sc s, (x : BitVec s.width) => s.isBool → x.toNat ≤ 1
    | .str, _ => True
    | .bytes, (s : List Byte) => s.length ≤ maxInt
    | .struct fs, v => fs.Legal v
  def Fields.Legal : (fs : Fields) → fs.Val → Prop
    | .nil, _ => True
    | .void _ r, v => r.Legal v
    | .const _ _ _ _ r, v => r.Legal v
    | .one t _ _ r, (v : t.Val × r.Val) => t.Legal v.1 ∧ r.Legal v.2
    | .arr t len _ _ r, (v : List t.Val × r.Val) =>
      v.1.length = len ∧ (∀ x ∈ v.1, t.Legal x) ∧ r.Legal v.2
end

mutual
  theorem Ty.Legal.valid (c : Cfg) (b lp : Bool) : ∀ (t : Ty) (v : t.Val), t.Legal v → t.Valid c b lp v
    | .sc s, (v : BitVec s.width) => by
      intro h; simp only [Ty.Legal] at h; simp only [Ty.Valid]; exact fun hb _ => h hb
    | .str, v => by intro _; simp only [Ty.Valid]
    | .bytes, (v : List Byte) => by intro h; simpa only [Ty.Valid, Ty.Legal] using h
    | .struct fs, v => by
      intro h; simp only [Ty.Legal] at h; simp only [Ty.Valid]; exact Fields.Legal.valid c b fs v h
  theorem Fields.Legal.valid (c : Cfg) (b : Bool) : ∀ (fs : Fields) (v : fs.Val), fs.Legal v → fs.Valid c b v
    | .nil, v => by intro _; simp only [Fields.Valid]
    | .void _ r, v => by
      intro h; simp only [Fields.Legal] at h; simp only [Fields.Valid]; exact Fields.Legal.valid c b r v h
    | .const _ _ _ _ r, v => by
      intro h; simp only [Fields.Legal] at h; simp only [Fields.Valid]; exact Fields.Legal.valid c b r v h
    | .one t _ _ r, (v1, v2) => by
      intro h; simp only [Fields.Legal] at h; simp only [Fields.Valid]
      exact ⟨Ty.Legal.valid c b false t v1 h.1, Fields.Legal.valid c b r v2 h.2⟩
    | .arr t len _ _ r, (v1, v2) => by
      intro h; simp only [Fields.Legal] at h; simp only [Fields.Valid]
      exact ⟨h.1, fun x hx => Ty.Legal.valid c b _ t x (h.2.1 x hx), Fields.Legal.valid c b r v2 h.2.2⟩
end

/-- The fields of `a` followed by those of `b`. -/
def Fields.append : Fields → Fields → Fields
  | .nil, b => b
  | .void n r, b => .void n (r.append b)
  | .const p n big val r, b => .const p n big val (r.append b)
  | .one t bits big r, b => .one t bits big (r.append b)
  | .arr t len bits big r, b => .arr t len bits big (r.append b)

/-- A value of `a.append b` from its two parts. -/
def Fields.join : (a b : Fields) → a.Val → b.Val → (a.append b).Val
  | .nil, _, _, y => y
  | .void _ r, b, x, y => r.join b x y
  | .const _ _ _ _ r, b, x, y => r.join b x y
  | .one _ _ _ r, b, x, y => (x.1, r.join b x.2 y)
  | .arr _ _ _ _ r, b, x, y => (x.1, r.join b x.2 y)

theorem Fields.join_surj : ∀ (a b : Fields) (v : (a.append b).Val), ∃ x y, v = a.join b x y
  | .nil, b, v => ⟨(), v, rfl⟩
  | .void _ r, b, v => Fields.join_surj r b v
  | .const _ _ _ _ r, b, v => Fields.join_surj r b v
  | .one _ _ _ r, b, (v1, v2) => by
    obtain ⟨x, y, e⟩ := Fields.join_surj r b v2
    exact ⟨(v1, x), y, by rw [e]; rfl⟩
  | .arr _ _ _ _ r, b, (v1, v2) => by
    obtain ⟨x, y, e⟩ := Fields.join_surj r b v2
    exact ⟨(v1, x), y, by rw [e]; rfl⟩

theorem Fields.sum_append : ∀ (a b : Fields), (a.append b).sum = a.sum + b.sum
  | .nil, b => by simp [Fields.append, Fields.sum]
  | .void _ r, b => by simp [Fields.append, Fields.sum, Fields.sum_append r b]; omega
  | .const _ _ _ _ r, b => by simp [Fields.append, Fields.sum, Fields.sum_append r b]; omega
  | .one _ _ _ r, b => by simp [Fields.append, Fields.sum, Fields.sum_append r b]; omega
  | .arr _ _ _ _ r, b => by simp [Fields.append, Fields.sum, Fields.sum_append r b]; omega

theorem Fields.dynamic_append : ∀ (a b : Fields), (a.append b).dynamic = (a.dynamic || b.dynamic)
  | .nil, b => by simp [Fields.append, Fields.dynamic]
  | .void _ r, b => by simp [Fields.append, Fields.dynamic, Fields.dynamic_append r b]
  | .const _ _ _ _ r, b => by simp [Fields.append, Fields.dynamic, Fields.dynamic_append r b]
  | .one _ _ _ r, b => by simp [Fields.append, Fields.dynamic, Fields.dynamic_append r b, Bool.or_assoc]
  | .arr _ _ _ _ r, b => by simp [Fields.append, Fields.dynamic, Fields.dynamic_append r b, Bool.or_assoc]

theorem Fields.wire_append : ∀ (a b : Fields) (x : a.Val) (y : b.Val),
    (a.append b).wire (a.join b x y) = a.wire x ++ b.wire y
  | .nil, b, x, y => by simp [Fields.append, Fields.join, Fields.wire]
  | .void _ r, b, x, y => by
    simp only [Fields.append, Fields.join, Fields.wire, Fields.wire_append r b x y, List.append_assoc]
  | .const _ _ _ _ r, b, x, y => by
    simp only [Fields.append, Fields.join, Fields.wire, Fields.wire_append r b x y, List.append_assoc]
  | .one t bits big r, b, (x1, x2), y => by
    simp only [Fields.append, Fields.join, Fields.wire, Fields.wire_append r b x2 y, List.append_assoc]
  | .arr t len bits big r, b, (x1, x2), y => by
    simp only [Fields.append, Fields.join, Fields.wire, Fields.wire_append r b x2 y, List.append_assoc]

theorem Fields.Repr_append (c : Cfg) : ∀ (a b : Fields) (x : a.Val) (y : b.Val) (ws : List (Option Bool)),
    (a.append b).Repr c (a.join b x y) ws ↔ ∃ w1 w2, a.Repr c x w1 ∧ b.Repr c y w2 ∧ ws = w1 ++ w2
  | .nil, b, x, y, ws => by
    constructor
    · intro h; exact ⟨[], ws, rfl, h, rfl⟩
    · rintro ⟨w1, w2, h1, h2, e⟩
      simp only [Fields.Repr] at h1
      subst h1; subst e; exact h2
  | .void n r, b, x, y, ws => by
    have ih := Fields.Repr_append c r b x y
    constructor
    · rintro ⟨w', h, e⟩
      obtain ⟨w1, w2, h1, h2, e'⟩ := (ih w').mp h
      exact ⟨List.replicate n none ++ w1, w2, ⟨w1, h1, rfl⟩, h2, by rw [e, e', List.append_assoc]⟩
    · rintro ⟨w1, w2, ⟨w1', h1, e1⟩, h2, e⟩
      exact ⟨w1' ++ w2, (ih _).mpr ⟨w1', w2, h1, h2, rfl⟩, by rw [e, e1, List.append_assoc]⟩
  | .const p n big val r, b, x, y, ws => by
    have ih := Fields.Repr_append c r b x y
    constructor
    · rintro ⟨w', h, e⟩
      obtain ⟨w1, w2, h1, h2, e'⟩ := (ih w').mp h
      exact ⟨scWire n big (BitVec.ofNat 64 val) ++ w1, w2, ⟨w1, h1, rfl⟩, h2, by rw [e, e', List.append_assoc]⟩
    · rintro ⟨w1, w2, ⟨w1', h1, e1⟩, h2, e⟩
      exact ⟨w1' ++ w2, (ih _).mpr ⟨w1', w2, h1, h2, rfl⟩, by rw [e, e1, List.append_assoc]⟩
  | .one t bits big r, b, (x1, x2), y, ws => by
    have ih := Fields.Repr_append c r b x2 y
    constructor
    · rintro ⟨u1, u2, h, h', e⟩
      obtain ⟨w1, w2, h1, h2, e'⟩ := (ih u2).mp h'
      exact ⟨u1 ++ (if t.dynamic then List.replicate (bits.getD 0) none else []) ++ w1, w2,
        ⟨u1, w1, h, h1, rfl⟩, h2, by rw [e, e']; simp only [List.append_assoc]⟩
    · rintro ⟨w1, w2, ⟨u1, u2, h, h1, e1⟩, h2, e⟩
      exact ⟨u1, u2 ++ w2, h, (ih _).mpr ⟨u2, w2, h1, h2, rfl⟩, by
        rw [e, e1]; simp only [List.append_assoc]⟩
  | .arr t len bits big r, b, (x1, x2), y, ws => by
    have ih := Fields.Repr_append c r b x2 y
    constructor
    · rintro ⟨u1, u2, hl, h, h', e⟩
      obtain ⟨w1, w2, h1, h2, e'⟩ := (ih u2).mp h'
      exact ⟨u1.flatten ++ w1, w2, ⟨u1, w1, hl, h, h1, rfl⟩, h2, by rw [e, e', List.append_assoc]⟩
    · rintro ⟨w1, w2, ⟨u1, u2, hl, h, h1, e1⟩, h2, e⟩
      exact ⟨u1, u2 ++ w2, hl, h, (ih _).mpr ⟨u2, w2, h1, h2, rfl⟩, by
        rw [e, e1, List.append_assoc]⟩

/-! ### The wire form is the shortest representation -/

theorem leb_varint_le {bs : List Byte} {m : Nat} (h : leb bs = some m) : (varint m).length ≤ bs.length :=
  varint_length_le _ (leb_ne_nil h) (leb_lt bs m h)

theorem All2.flatten_le {α : Type} {R : α → List (Option Bool) → Prop} {f : α → List (Option Bool)}
    (h : ∀ x w, R x w → (f x).length ≤ w.length) {xs : List α} {wss : List (List (Option Bool))}
    (ha : All2 R xs wss) : (xs.map f).flatten.length ≤ wss.flatten.length := by
  induction ha with
  | nil => simp
  | cons h1 _ ih =>
    simp only [List.map_cons, List.flatten_cons, List.length_append]
    have := h _ _ h1
    omega

mutual
  theorem Ty.wire_le_repr (c : Cfg) : ∀ (t : Ty) (lp : Bool) (n : Nat) (big : Bool) (v : t.Val) (ws : List (Option Bool)),
      t.Repr c lp n big v ws → (t.wire n big v).length ≤ ws.length
    | .sc s, lp, n, big, (v : BitVec s.width), ws => by
      intro h
      simp only [Ty.Repr] at h
      simp only [Ty.wire, scWire_length]
      split at h
      · obtain ⟨y, e, _⟩ := h; rw [e, scWire_length]; exact Nat.le_refl _
      · rw [h.2, scWire_length]; exact Nat.le_refl _
    | .str, lp, n, big, (v : List Byte), ws => by
      intro h; simp only [Ty.Repr] at h; simp only [Ty.wire]; rw [h.2]; exact Nat.le_refl _
    | .bytes, lp, n, big, (v : List Byte), ws => by
      intro h; simp only [Ty.Repr] at h
      obtain ⟨bs, h1, h2, e⟩ := h
      simp only [Ty.wire]
      rw [e, byteWire_length, byteWire_length, List.length_append, List.length_append]
      have := leb_varint_le h1
      omega
    | .struct fs, lp, n, big, v, ws => by
      intro h; simp only [Ty.Repr] at h; simp only [Ty.wire]; exact Fields.wire_le_repr c fs v ws h
  theorem Fields.wire_le_repr (c : Cfg) : ∀ (fs : Fields) (v : fs.Val) (ws : List (Option Bool)),
      fs.Repr c v ws → (fs.wire v).length ≤ ws.length
    | .nil, v, ws => by intro h; simp [Fields.wire]
    | .void n r, v, ws => by
      rintro ⟨w', h, e⟩
      have := Fields.wire_le_repr c r v w' h
      simp only [Fields.wire, e, List.length_append, List.length_replicate]; omega
    | .const _ n big val r, v, ws => by
      rintro ⟨w', h, e⟩
      have := Fields.wire_le_repr c r v w' h
      simp only [Fields.wire, e, List.length_append, scWire_length]; omega
    | .one t bits big r, (v1, v2), ws => by
      rintro ⟨w1, w2, h1, h2, e⟩
      have g1 := Ty.wire_le_repr c t false _ big v1 w1 h1
      have g2 := Fields.wire_le_repr c r v2 w2 h2
      simp only [Fields.wire, e, List.length_append]; omega
    | .arr t len bits big r, (v1, v2), ws => by
      rintro ⟨wss, w2, hl, h1, h2, e⟩
      have g1 := All2.flatten_le (f := fun x => t.wire (bits.getD 0 / len) big x)
        (fun x w h => Ty.wire_le_repr c t _ _ big x w h) h1
      simp only at g1
      have g2 := Fields.wire_le_repr c r v2 w2 h2
      simp only [Fields.wire, e, List.length_append]; omega
end

end Bubbler
