import Verif.Codec.Evolve
import Verif.Compiler.Bare
import Verif.Props.SizeProps
import Verif.Props.ExchangeProps

/-
C77: changing a struct definition and still understanding each other.

`a.append b` is the struct `a` with the fields `b` added at the end, `a.join b x y` its value made of the values `x` and `y`.
The new definition with reserved bits put to use is `a`, then fields `mid`, then `b`, where the old one had `void #n` between
`a` and `b`.
-/
set_option linter.unusedSimpArgs false
namespace Bubbler
open Sample Comp

/-! ### Fields added at the end -/

/-- C77: a message of the extended struct begins with the message of the old one. -/
theorem C77_prefix (c : Cfg) (a b : Fields) (ha : a.accepted = true) (hab : (a.append b).accepted = true)
    (x : a.Val) (y : b.Val) (hx : a.Legal x) (hy : b.Legal y) :
    ∃ d e, a.encode c x = some d ∧ (a.append b).encode c (a.join b x y) = some (d ++ e) := by
  have hxy := (Fields.Legal_join a b x y).mpr ⟨hx, hy⟩
  obtain ⟨d, e1, -, l1, o1, -⟩ := Fields.encode_spec c ha (Fields.Legal.valid c false a x hx)
  obtain ⟨f, e2, -, l2, o2, -⟩ := Fields.encode_spec c hab (Fields.Legal.valid c false _ _ hxy)
  rw [Fields.wire_append] at l2 o2
  rw [List.length_append] at l2
  refine ⟨d, f.drop d.length, e1, ?_⟩
  rw [e2]
  have : f.take d.length = d := by
    refine Buf.ext_bits (by rw [List.length_take]; omega) fun i hi => ?_
    rw [List.length_take] at hi
    rw [bitAt_take (by omega), o2.2, o1.2, if_pos (Nat.zero_le _), if_pos (Nat.zero_le _), bitAt_replicate_zero,
      bitAt_replicate_zero, List.getD_eq_getElem?_getD, List.getD_eq_getElem?_getD, List.getElem?_append_left (by omega)]
  conv => lhs; rw [← List.take_append_drop d.length f, this]

/-- C77: whatever a program with the extended definition accepts, a program with the old definition accepts too, with the
same values for the fields it knows. -/
theorem C77_old_reader (c : Cfg) (a b : Fields) (ha : a.accepted = true) (hab : (a.append b).accepted = true)
    (hn : (a.append b).noDirectDyn = true) (d : Buf) (hd : d.length < 2 ^ 62) (hw : (a.append b).NoWrap d)
    (v : (a.append b).Val) (n : Nat) (h : (a.append b).decode c d = .ok (v, n)) :
    ∃ x y m, v = a.join b x y ∧ a.decode c d = .ok (x, m) ∧ a.decodeSize d = some (m : Int) ∧ m ≤ n := by
  obtain ⟨ws, hr, hag, hl⟩ := (Fields.decode_iff c hab hn hd hw v n).mp h
  obtain ⟨x, y, rfl⟩ := Fields.join_surj a b v
  obtain ⟨w1, w2, r1, -, rfl⟩ := (Fields.Repr_append c a b x y ws).mp hr
  rw [Fields.noDirectDyn_append, Bool.and_eq_true] at hn
  obtain ⟨m, h1, h2, h3⟩ := Fields.decode_of_repr c ha hn.1 hd r1 (Agrees.append.mp hag).1
  refine ⟨x, y, m, rfl, h1, h2, ?_⟩
  rw [List.length_append] at hl
  omega

/-- C77: a program with the extended definition does not take an old message for a new one: it refuses it, and says how many
bytes it misses. -/
theorem C77_new_reader (ce cd : Cfg) (a b : Fields) (ha : a.accepted = true) (hab : (a.append b).accepted = true)
    (hn : (a.append b).noDirectDyn = true) (x : a.Val) (hx : a.Legal x) (hr : a.InRange x)
    (hb : 0 < b.sum ∨ b.dynamic = true) (hsz : (a.append b).encodeSize (a.join b x b.zero) < 2 ^ 62) :
    ∃ d, a.encode ce x = some d ∧ (a.append b).decode cd d = .fail ∧
      ∃ need : Nat, (a.append b).decodeSize d = some (-(need : Int)) ∧ d.length < need := by
  have hy := Fields.zero_legal b
  obtain ⟨d, e, h1, h2⟩ := C77_prefix ce a b ha hab x b.zero hx hy
  obtain ⟨f, h3, h4⟩ := C08_truncated ce cd hab hn (a.join b x b.zero) ((Fields.Legal_join a b x _).mpr ⟨hx, hy⟩)
    ((Fields.InRange_join a b x _).mpr ⟨hr, Fields.zero_inRange b⟩) hsz
  rw [h2] at h3
  cases h3
  have l1 := C02_size_is_wire_size ha x hx
  have l2 := C02_size_is_wire_size hab _ ((Fields.Legal_join a b x _).mpr ⟨hx, hy⟩)
  rw [Fields.wire_append, List.length_append] at l2
  obtain ⟨d', g1, g2⟩ := (C02_size_exact ce ha x hx).1
  obtain ⟨f', g3, g4⟩ := (C02_size_exact ce hab _ ((Fields.Legal_join a b x _).mpr ⟨hx, hy⟩)).1
  rw [h1] at g1; cases g1
  rw [h2] at g3; cases g3
  have hwf := (Fields.wf_append a b 0 (Fields.accepted_facts hab).1).2
  have hwl := Fields.wire_length cd false b _ b.zero hwf (Fields.Legal.valid cd false b _ hy)
  have hpos : 0 < (b.wire b.zero).length := by
    rcases hb with hb | hb
    · omega
    · have := Fields.dynamic_size hwf hb b.zero hy
      omega
  have hlen : d.length < (d ++ e).length := by omega
  obtain ⟨k1, need, k2, k3, -⟩ := h4 d.length hlen
  rw [List.take_left' rfl] at k1 k2
  exact ⟨d, h1, k1, need, k2, k3⟩

/-! ### Reserved bits put to use -/

/-- C77: where the old definition reserved `n` bits and the new one has fields of `n` bits in total, a program with the old
definition still accepts whatever a program with the new one accepts, with the same values for the fields it knows. -/
theorem C77_reserved_old_reader (c : Cfg) (a mid b : Fields) (hold : (a.append (.void mid.sum b)).accepted = true)
    (hnew : (a.append (mid.append b)).accepted = true) (hn : (a.append (mid.append b)).noDirectDyn = true)
    (hs : mid.dynamic = false) (d : Buf) (hd : d.length < 2 ^ 62) (hw : (a.append (mid.append b)).NoWrap d)
    (v : (a.append (mid.append b)).Val) (n : Nat) (h : (a.append (mid.append b)).decode c d = .ok (v, n)) :
    ∃ (x : a.Val) (m : mid.Val) (y : b.Val), v = a.join (mid.append b) x (mid.join b m y) ∧
      (a.append (.void mid.sum b)).decode c d = .ok (a.join (.void mid.sum b) x y, n) := by
  obtain ⟨ws, hr, hag, hl⟩ := (Fields.decode_iff c hnew hn hd hw v n).mp h
  obtain ⟨x, z, rfl⟩ := Fields.join_surj a (mid.append b) v
  obtain ⟨m, y, rfl⟩ := Fields.join_surj mid b z
  obtain ⟨w1, w', r1, r', rfl⟩ := (Fields.Repr_append c a _ x _ ws).mp hr
  obtain ⟨w2, w3, r2, r3, rfl⟩ := (Fields.Repr_append c mid b m y w').mp r'
  have hwf := (Fields.wf_append mid b _ (Fields.wf_append a _ 0 (Fields.accepted_facts hnew).1).2).1
  have hlen := Fields.Repr_length c mid _ m w2 hwf hs r2
  rw [Fields.noDirectDyn_append, Fields.noDirectDyn_append, Bool.and_eq_true, Bool.and_eq_true] at hn
  have hn' : (a.append (.void mid.sum b)).noDirectDyn = true := by
    rw [Fields.noDirectDyn_append, Bool.and_eq_true]
    exact ⟨hn.1, hn.2.2⟩
  have hrep : (a.append (.void mid.sum b)).Repr c (a.join (.void mid.sum b) x y)
      (w1 ++ (List.replicate mid.sum none ++ w3)) :=
    (Fields.Repr_append c a _ x _ _).mpr ⟨w1, _, r1, ⟨w3, r3, rfl⟩, rfl⟩
  obtain ⟨g1, g2⟩ := Agrees.append.mp hag
  obtain ⟨g3, g4⟩ := Agrees.append.mp g2
  have hag' : Agrees d 0 (w1 ++ (List.replicate mid.sum none ++ w3)) := by
    refine Agrees.append.mpr ⟨g1, Agrees.append.mpr ⟨⟨?_, ?_⟩, ?_⟩⟩
    · have := g3.1
      simp only [List.length_replicate]
      omega
    · intro j bb hj
      rw [List.getElem?_replicate] at hj
      split at hj <;> cases hj
    · rw [List.length_replicate, ← hlen]
      exact g4
  obtain ⟨k, h1, -, h3⟩ := Fields.decode_of_repr c hold hn' hd hrep hag'
  refine ⟨x, m, y, rfl, ?_⟩
  have : k = n := by
    simp only [List.length_append, List.length_replicate] at h3 hl
    omega
  rw [h1, this]

/-- C77: the other way round, an old message is the message of the new definition with zero in the new fields, if these
contain no constants. -/
theorem C77_reserved_message (c : Cfg) (a mid b : Fields) (hold : (a.append (.void mid.sum b)).accepted = true)
    (hnew : (a.append (mid.append b)).accepted = true) (hs : mid.dynamic = false) (hc : mid.noConst = true)
    (x : a.Val) (y : b.Val) (hx : a.Legal x) (hy : b.Legal y) :
    ∃ d, (a.append (.void mid.sum b)).encode c (a.join (.void mid.sum b) x y) = some d ∧
      (a.append (mid.append b)).encode c (a.join (mid.append b) x (mid.join b mid.zero y)) = some d := by
  have hz := Fields.zero_legal mid
  have hv1 := (Fields.Legal_join a (.void mid.sum b) x y).mpr ⟨hx, hy⟩
  have hv2 := (Fields.Legal_join a (mid.append b) x _).mpr ⟨hx, (Fields.Legal_join mid b mid.zero y).mpr ⟨hz, hy⟩⟩
  obtain ⟨d, e1, -, l1, o1, -⟩ := Fields.encode_spec c hold (Fields.Legal.valid c false _ _ hv1)
  obtain ⟨f, e2, -, l2, o2, -⟩ := Fields.encode_spec c hnew (Fields.Legal.valid c false _ _ hv2)
  rw [Fields.wire_append, Fields.wire_append] at l2 o2
  have hvw : (a.append (.void mid.sum b)).wire (a.join (.void mid.sum b) x y) = a.wire x ++ (List.replicate mid.sum none ++ b.wire y) :=
    Fields.wire_append a (.void mid.sum b) x y
  replace l1 := l1.trans (congrArg List.length hvw)
  replace o1 := Eq.mp (congrArg (Overlay _ d 0) hvw) o1
  have hwf := (Fields.wf_append mid b _ (Fields.wf_append a _ 0 (Fields.accepted_facts hnew).1).2).1
  have hlen : (mid.wire mid.zero).length = mid.sum := by
    rw [Fields.wire_length c false mid _ mid.zero hwf (Fields.Legal.valid c false mid _ hz), Fields.sizeExtra_static mid _ hs]
    omega
  simp only [List.length_append, List.length_replicate, hlen] at l1 l2
  refine ⟨d, e1, ?_⟩
  rw [e2]
  congr 1
  refine Buf.ext_bits (by omega) fun i hi => ?_
  rw [o1.2, o2.2, if_pos (Nat.zero_le _), if_pos (Nat.zero_le _), bitAt_replicate_zero, bitAt_replicate_zero]
  simp only [List.getD_eq_getElem?_getD, List.getElem?_append, Nat.sub_zero, List.length_replicate, hlen]
  split
  · rfl
  split
  · rename_i h1 h2
    rw [List.getElem?_replicate, if_pos h2]
    have hz := Fields.zero_wire mid hs hc
    rw [List.getElem?_eq_getElem (by omega)]
    have hm := List.getElem_mem (l := mid.wire mid.zero) (n := i - (a.wire x).length) (by omega)
    generalize (mid.wire mid.zero)[i - (a.wire x).length] = w at hm
    match w, hm with
    | none, _ => rfl
    | some false, _ => rfl
    | some true, hm => exact absurd hm hz
  · rfl

/-- C77: so a program with the new definition reads an old message with zero in the new fields. -/
theorem C77_reserved_new_reader (ce cd : Cfg) (a mid b : Fields) (hold : (a.append (.void mid.sum b)).accepted = true)
    (hnew : (a.append (mid.append b)).accepted = true) (hn : (a.append (mid.append b)).noDirectDyn = true)
    (hs : mid.dynamic = false) (hc : mid.noConst = true) (x : a.Val) (y : b.Val) (hx : a.Legal x) (hy : b.Legal y)
    (hrx : a.InRange x) (hry : b.InRange y)
    (hsz : (a.append (.void mid.sum b)).encodeSize (a.join (.void mid.sum b) x y) < 2 ^ 62) :
    ∃ d, (a.append (.void mid.sum b)).encode ce (a.join (.void mid.sum b) x y) = some d ∧
      (a.append (mid.append b)).decode cd d = .ok (a.join (mid.append b) x (mid.join b mid.zero y), d.length) := by
  obtain ⟨d, h1, h2⟩ := C77_reserved_message ce a mid b hold hnew hs hc x y hx hy
  have hv2 := (Fields.Legal_join a (mid.append b) x _).mpr ⟨hx, (Fields.Legal_join mid b mid.zero y).mpr ⟨Fields.zero_legal mid, hy⟩⟩
  have hr2 := (Fields.InRange_join a (mid.append b) x _).mpr
    ⟨hrx, (Fields.InRange_join mid b mid.zero y).mpr ⟨Fields.zero_inRange mid, hry⟩⟩
  obtain ⟨d1, g1, g2⟩ := (C02_size_exact ce hold _ ((Fields.Legal_join a (.void mid.sum b) x y).mpr ⟨hx, hy⟩)).1
  obtain ⟨d2, g3, g4⟩ := (C02_size_exact ce hnew _ hv2).1
  rw [h1] at g1; cases g1
  rw [h2] at g3; cases g3
  obtain ⟨f, k1, k2⟩ := C01_roundtrip ce cd hnew hn _ hv2 hr2 (by omega)
  rw [h2] at k1; cases k1
  exact ⟨d, h1, k2⟩

/-! ### All languages -/

/-- C77: a message written for the extended definition in any language is read by programs in all languages that only know the
old definition. -/
theorem C77_any_language (a b : Fields) (ha : a.accepted = true) (hab : (a.append b).accepted = true)
    (hn : (a.append b).noDirectDyn = true) (x : a.Val) (y : b.Val) (hx : a.Legal x) (hy : b.Legal y) (hr : a.InRange x)
    (f : Buf) (h : Written (a.append b) (a.join b x y) f) (rest : Buf) (hsz : (f ++ rest).length < 2 ^ 28) :
    ∃ d e, f = d ++ e ∧ (∀ c, a.encode c x = some d) ∧ ReadEverywhere a x d (e ++ rest) := by
  have hxy := (Fields.Legal_join a b x y).mpr ⟨hx, hy⟩
  have h1 := C76_one_message hab hn _ hxy f h cfg
  obtain ⟨d, e, h2, h3⟩ := C77_prefix cfg a b ha hab x y hx hy
  rw [h1] at h3
  cases h3
  rw [Fields.noDirectDyn_append, Bool.and_eq_true] at hn
  refine ⟨d, e, rfl, C76_one_message ha hn.1 x hx d (.go cfg h2), C76_exchange ha hn.1 x hx hr d (.go cfg h2) (e ++ rest) ?_⟩
  rw [← List.append_assoc]
  exact hsz

/-! ### Definitions in source files -/

/-- C77 for compiled projects.  `old` is a struct of one project, `new` one of another (a later version): the fields of `new`, as
far as the wire is concerned (`bareAll`: without names, methods, enum values and other options than the byte order), are those of
`old` and then some.  Then whatever the new program accepts the old one accepts, with the same values for its fields; and messages
of the new program, in any language, are read by old programs in all languages. -/
theorem C77_source (fs fs' : FS) (entry entry' : Comp.Str) (old new : StructD) (ho : InProject fs entry old)
    (hw : InProject fs' entry' new) (hgo : old.goOk = true) (hgw : new.goOk = true) (more : List FieldD)
    (hm : bareAll new.fields = bareAll old.fields ++ more) :
    ∃ a b, old.schema = some a ∧ new.schema = some (a.append b) ∧
      ((a.append b).noDirectDyn = true →
        (∀ c d v n, d.length < 2 ^ 62 → (a.append b).NoWrap d → (a.append b).decode c d = .ok (v, n) →
          ∃ x y m, v = a.join b x y ∧ a.decode c d = .ok (x, m) ∧ m ≤ n) ∧
        ∀ x y f rest, a.Legal x → b.Legal y → a.InRange x → Written (a.append b) (a.join b x y) f → (f ++ rest).length < 2 ^ 28 →
          ∃ d e, f = d ++ e ∧ (∀ c, a.encode c x = some d) ∧ ReadEverywhere a x d (e ++ rest)) := by
  obtain ⟨a, h1, ha, -, -⟩ := C45_schema fs entry old ho hgo
  obtain ⟨s, h2, hs, -, -⟩ := C45_schema fs' entry' new hw hgw
  have h3 := h2
  unfold StructD.schema at h3
  rw [← fieldsSchema_bare, hm] at h3
  obtain ⟨p, b, e1, -, rfl⟩ := fieldsSchema_append _ _ _ h3
  have h4 := h1
  unfold StructD.schema at h4
  rw [fieldsSchema_bare, h4] at e1
  cases e1
  refine ⟨a, b, h1, h2, fun hn => ⟨fun c d v n hd hnw h => ?_, fun x y f rest hx hy hr h hsz => ?_⟩⟩
  · obtain ⟨x, y, m, k1, k2, -, k3⟩ := C77_old_reader c a b ha hs hn d hd hnw v n h
    exact ⟨x, y, m, k1, k2, k3⟩
  · exact C77_any_language a b ha hs hn x y hx hy hr f h rest hsz

/-! ### Names -/

/-- C78: the messages of a struct depend only on what `bareAll` keeps of its fields.  Two structs, of one project or of two, that
differ only in names (of the struct, of fields, of constants, of the types of fields and of enum values), in methods, in enum
values, in options other than the byte order, or in whether fields are written out or embedded, have the same schema, so every
program of one writes and reads exactly what the programs of the other write and read. -/
theorem C78_names_do_not_matter (fs fs' : FS) (entry entry' : Comp.Str) (s t : StructD) (hs : InProject fs entry s)
    (ht : InProject fs' entry' t) (hg : s.goOk = true) (hb : bareAll s.fields = bareAll t.fields) :
    t.goOk = true ∧ s.bits = t.bits ∧ s.dyn = t.dyn ∧ ∃ a, s.schema = some a ∧ t.schema = some a ∧
      (a.noDirectDyn = true → ∀ v d rest, a.Legal v → a.InRange v → Written a v d → (d ++ rest).length < 2 ^ 28 →
        ReadEverywhere a v d rest) := by
  obtain ⟨a, h1, ha, k3, k4⟩ := C45_schema fs entry s hs hg
  have hg' : t.goOk = true := struct_goOk_bare hb ▸ hg
  obtain ⟨a', h2, -, k1, k2⟩ := C45_schema fs' entry' t ht hg'
  have h3 : t.schema = some a := by
    unfold StructD.schema at h1 ⊢
    rw [← fieldsSchema_bare, ← hb, fieldsSchema_bare, h1]
  rw [h2] at h3
  cases h3
  exact ⟨hg', k3.symm.trans k1, k4.symm.trans k2, a, h1, h2, fun hn v d rest hv hr h hsz => C76_exchange ha hn v hv hr d h rest hsz⟩

/-! ### The hypotheses can be met -/

/-- Two fields added behind the sample message: a counter and a text -/
def evMore : Fields := .one (.sc (.prim .u16)) (some 16) true <| .one .str none false .nil

theorem ev_accepted : (msg.append evMore).accepted = true := by decide +kernel
theorem ev_noDirectDyn : (msg.append evMore).noDirectDyn = true := by decide +kernel

def evMoreVal : evMore.Val := ((513#16 : BitVec 16), ([0x6F#8, 0x6B#8] : List Byte), ())

theorem ev_legal : evMore.Legal evMoreVal := by
  exact ⟨nofun, trivial, trivial⟩

/-- The old program reads the 25 bytes it knows of the longer message of 30 bytes, the new one refuses the shorter message. -/
example : ∃ d e, msg.encode cfg msgVal = some d ∧ d.length = 25 ∧ e.length = 5 ∧
    (msg.append evMore).encode cfg (msg.join evMore msgVal evMoreVal) = some (d ++ e) ∧
    msg.decode cfg' (d ++ e) = .ok (msgVal, 25) ∧ (msg.append evMore).decode cfg' d = .fail := by
  have hxy := (Fields.Legal_join msg evMore msgVal evMoreVal).mpr ⟨msg_legal, ev_legal⟩
  obtain ⟨f, h1, h2⟩ := (C02_size_exact cfg ev_accepted _ hxy).1
  have h3 : (msg.append evMore).encodeSize (msg.join evMore msgVal evMoreVal) = 30 := by decide +kernel
  obtain ⟨d, e, rfl, k1, k2⟩ := C77_any_language msg evMore msg_accepted ev_accepted ev_noDirectDyn msgVal evMoreVal msg_legal ev_legal
    msg_inRange f (.go cfg h1) [] (by rw [List.append_nil, h2, h3]; decide)
  obtain ⟨d', g1, g2⟩ := msg_bytes
  rw [k1 cfg] at g1
  cases g1
  have g3 := k2.go cfg'
  rw [List.append_nil, g2] at g3
  obtain ⟨d', m1, m2, -⟩ := C77_new_reader cfg cfg' msg evMore msg_accepted ev_accepted ev_noDirectDyn msgVal msg_legal msg_inRange
    (.inl (by decide +kernel)) (by decide +kernel)
  rw [k1 cfg] at m1
  cases m1
  refine ⟨d, e, k1 cfg, g2, ?_, h1, g3, m2⟩
  rw [h3, List.length_append, g2] at h2
  omega

/-- `msg` with its two reserved bits in use: a field of 2 bits -/
def evA : Fields := .const .u8 8 false 0xA5 <| .one (.sc (.prim .bool)) (some 1) false .nil
def evMid : Fields := .one (.sc (.prim .u8)) (some 2) false .nil
def evB : Fields :=
  .one (.sc (.enum 5)) (some 5) false <|
  .one (.struct point) (some 16) false <|
  .one .bytes none false .nil

def evAVal : evA.Val := ((1#8 : BitVec 8), ())
def evBVal : evB.Val := ((17#8 : BitVec (goUintWidth 5)), pointVal, ([1#8, 0#8, 3#8] : List Byte), ())

/-- A new program reads an old message with 0 in the new field. -/
example : ∃ d, (evA.append (.void 2 evB)).encode cfg (evA.join (.void 2 evB) evAVal evBVal) = some d ∧
    (evA.append (evMid.append evB)).decode cfg' d =
      .ok (evA.join (evMid.append evB) evAVal (evMid.join evB ((0#8 : BitVec 8), ()) evBVal), d.length) :=
  C77_reserved_new_reader cfg cfg' evA evMid evB (by decide +kernel) (by decide +kernel) (by decide +kernel) (by decide +kernel)
    (by decide +kernel) evAVal evBVal ⟨fun _ => by decide +kernel, trivial⟩
    ⟨nofun, ⟨nofun, nofun, trivial⟩, Nat.le_of_ble_eq_true rfl, trivial⟩
    ⟨by show (1#8).toNat < 2 ^ 1; decide, trivial⟩
    ⟨by show (17#8).toNat < 2 ^ 5; decide,
      ⟨by show (5#8).toNat < 2 ^ 3; decide,
       by show -(2 : Int) ^ 12 ≤ (((-1234 : Int) : BitVec 16)).toInt ∧ (((-1234 : Int) : BitVec 16)).toInt < (2 : Int) ^ 12; decide +kernel, trivial⟩,
      trivial, trivial⟩ (by decide +kernel)

/-! A project, and a later version of it: `Packet` is `Head` with other names, a method dropped, `Packet2` a longer version. -/

/-- `struct Packet { bool ok[#1]; void[#3]; uint8 kind[#4] [order = "big"]; int64 count[6]; }` -/
def evPacket : StructA := .mk 3 0 "Packet".toList none
  (.cons (.normal (.elem (.basic .bool)) "ok".toList (some (Comp.Sample.bitsSize ['1'])) [] none)
  (.cons (.void (Comp.Sample.bitsSize ['3']) [])
  (.cons (.normal (.elem (.basic .u8)) "kind".toList (some (Comp.Sample.bitsSize ['4']))
    [⟨"order".toList, .str (some "big".toList)⟩] none)
  (.cons (.normal (.elem (.basic .i64)) "count".toList (some (Comp.Sample.bytesSize ['6'])) [] none)
  .nil))))

def evFS : FS := fun p => if p = ['a'] then .parsed ⟨[], [['q']], [], [.struct evPacket]⟩ else .missing

def structOf (fs : FS) (entry n : Comp.Str) : Option StructD :=
  match Comp.compile fs 5 entry RT.new with
  | some (_, .ok u) =>
    match aget u.globalTypes n with
    | some td =>
      match td.ty with
      | .struct s => some s
      | _ => none
    | none => none
  | _ => none

theorem structOf_project {fs : FS} {entry n : Comp.Str} {p : StructD → Bool} (h : (structOf fs entry n).any p = true) :
    ∃ s, InProject fs entry s ∧ p s = true := by
  unfold structOf at h
  cases hc : Comp.compile fs 5 entry RT.new with
  | none => rw [hc] at h; cases h
  | some x =>
    obtain ⟨rt, o⟩ := x
    rw [hc] at h
    cases o with
    | ok u =>
      simp only at h
      cases ha : aget u.globalTypes n with
      | none => rw [ha] at h; cases h
      | some td =>
        rw [ha] at h
        simp only at h
        cases ht : td.ty with
        | struct s =>
          rw [ht] at h
          exact ⟨s, ⟨5, rt, u, _, td, hc, aget_mem ha, ht⟩, by simpa using h⟩
        | _ => rw [ht] at h; cases h
    | _ => cases h

/-- The fields of `Head` and of `Packet`, bare -/
def evHead : List FieldD :=
  [.normal [] (.basic .bool) 1 [] [], .void 3, .normal [] (.basic .u8) 4 [] [("order".toList, .str "big".toList)],
    .normal [] (.basic .i64) 48 [] []]

/-- What follows these fields in a list, if it begins with them -/
def afterHead : List FieldD → Option (List FieldD)
  | .normal [] (.basic .bool) 1 [] [] :: .void 3 :: .normal [] (.basic .u8) 4 [] [(o, .str b)] ::
      .normal [] (.basic .i64) 48 [] [] :: r => if o = "order".toList ∧ b = "big".toList then some r else none
  | _ => none

theorem afterHead_eq {l r : List FieldD} (h : afterHead l = some r) : l = evHead ++ r := by
  unfold afterHead at h
  split at h
  · split at h
    · rename_i h'
      rw [h'.1, h'.2]
      cases h
      rfl
    · cases h
  · cases h

theorem head_bare : ∃ s, InProject bridgeFS ['a'] s ∧ s.goOk = true ∧ bareAll s.fields = evHead := by
  obtain ⟨s, h1, h2⟩ := structOf_project (fs := bridgeFS) (entry := ['a']) (n := "Head".toList)
    (p := fun s => s.goOk && (afterHead (bareAll s.fields)).any List.isEmpty) (by decide +kernel)
  rw [Bool.and_eq_true] at h2
  refine ⟨s, h1, h2.1, ?_⟩
  cases h : afterHead (bareAll s.fields) with
  | none => rw [h] at h2; cases h2.2
  | some r =>
    rw [h] at h2
    have := h2.2
    simp only [Option.any_some, List.isEmpty_iff] at this
    rw [afterHead_eq h, this, List.append_nil]

/-- `Head` of one project and `Packet` of another are the same on the wire. -/
example : ∃ s t, InProject bridgeFS ['a'] s ∧ InProject evFS ['a'] t ∧ s.goOk = true ∧ bareAll s.fields = bareAll t.fields ∧
    ∃ a, s.schema = some a ∧ t.schema = some a := by
  obtain ⟨s, h1, h2, h3⟩ := head_bare
  obtain ⟨t, h4, h5⟩ := structOf_project (fs := evFS) (entry := ['a']) (n := "Packet".toList)
    (p := fun s => (afterHead (bareAll s.fields)).any List.isEmpty) (by decide +kernel)
  have h6 : bareAll s.fields = bareAll t.fields := by
    cases h : afterHead (bareAll t.fields) with
    | none => rw [h] at h5; cases h5
    | some r =>
      rw [h] at h5
      simp only [Option.any_some, List.isEmpty_iff] at h5
      rw [afterHead_eq h, h5, h3, List.append_nil]
  obtain ⟨-, -, -, a, h7, h8, -⟩ := C78_names_do_not_matter bridgeFS evFS ['a'] ['a'] s t h1 h4 h2 h6
  exact ⟨s, t, h1, h4, h2, h6, a, h7, h8⟩

/-- `Msg`, which embeds `Head` and goes on, is a later version of `Packet`. -/
example : ∃ old new more, InProject evFS ['a'] old ∧ InProject bridgeFS ['a'] new ∧ old.goOk = true ∧ new.goOk = true ∧
    bareAll new.fields = bareAll old.fields ++ more ∧ more ≠ [] := by
  obtain ⟨t, h4, h5⟩ := structOf_project (fs := evFS) (entry := ['a']) (n := "Packet".toList)
    (p := fun s => s.goOk && (afterHead (bareAll s.fields)).any List.isEmpty) (by decide +kernel)
  obtain ⟨s, h1, h2⟩ := structOf_project (fs := bridgeFS) (entry := ['a']) (n := "Msg".toList)
    (p := fun s => s.goOk && (afterHead (bareAll s.fields)).any fun r => !r.isEmpty) (by decide +kernel)
  rw [Bool.and_eq_true] at h2 h5
  cases h : afterHead (bareAll t.fields) with
  | none => rw [h] at h5; cases h5.2
  | some r =>
    cases h' : afterHead (bareAll s.fields) with
    | none => rw [h'] at h2; cases h2.2
    | some r' =>
      rw [h] at h5
      rw [h'] at h2
      have e1 := h5.2
      have e2 := h2.2
      simp only [Option.any_some, List.isEmpty_iff, Bool.not_eq_true', List.isEmpty_eq_false_iff] at e1 e2
      refine ⟨t, s, r', h4, h1, h5.1, h2.1, ?_, e2⟩
      rw [afterHead_eq h, afterHead_eq h', e1, List.append_nil]

end Bubbler
