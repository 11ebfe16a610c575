import Verif.Obj.Contents
import Verif.Props.JavaProps
import Verif.Props.CsProps
import Verif.Props.KtProps

/-
C68: `equals` and `hashCode` of the classes generated for Java, C# and Kotlin.
-/
namespace Bubbler
open Obj Sample

/-- **C68, equivalence.** In all three languages `equals` is reflexive, symmetric and transitive on the objects there are
(also those with NaNs, since an object equals itself), and no object equals null or an object of another class. -/
theorem C68_equivalence (l : Lang) (H : Heap l.enumBits) (fs : Fields) :
    (∀ x : Object l fs, equals l x none = false) ∧
    (∀ x : Object l fs, equals l x (some x) = true) ∧
    (∀ x y : Object l fs, equals l x (some y) = equals l y (some x)) ∧
    (∀ x y z : Object l fs, H.Has x → H.Has y → H.Has z → equals l x (some y) = true → equals l y (some z) = true →
      equals l x (some z) = true) := by
  refine ⟨fun _ => rfl, fun x => ?_, fun x y => Ty.objEq_symm l _ x y, fun x y z hx hy hz => Ty.objEq_trans l H _ x y z hx hy hz⟩
  show (x.1 == x.1 || fs.attrsEq l x.2 x.2) = true
  simp

/-- **C68, equal objects.** Equal objects have the same content, up to what `Fields.norm` forgets of floats: the sign of zero of
single floats, the payload of NaNs in arrays, in C# also the sign of zero in arrays. -/
theorem C68_equal_content (l : Lang) (H : Heap l.enumBits) {fs : Fields} (x y : Object l fs) (hx : H.Has x) (hy : H.Has y)
    (h : equals l x (some y) = true) : fs.norm l l.enumBits (contentOf x) = fs.norm l l.enumBits (contentOf y) :=
  Ty.objEq_sound l H (.struct fs) x y hx hy h

/-- **C68, objects with the same content.** They are equal, if no single float is a NaN; in C# if there are no `bytes`
(`C68_csharp_bytes_counterexample`). -/
theorem C68_content_equal (l : Lang) {fs : Fields} (hb : l.cs = true → fs.noBytes = true) (x y : Object l fs)
    (hn : fs.singles notNaN l.enumBits (contentOf x) = true)
    (h : fs.norm l l.enumBits (contentOf x) = fs.norm l l.enumBits (contentOf y)) : equals l x (some y) = true :=
  Ty.objEq_complete l (.struct fs) hb (by simp) x y hn h

/-- **C68, without floats.** Objects are equal exactly if they have the same content. -/
theorem C68_exact (l : Lang) (H : Heap l.enumBits) {fs : Fields} (hf : fs.noFloats = true) (hb : l.cs = true → fs.noBytes = true)
    (x y : Object l fs) (hx : H.Has x) (hy : H.Has y) : equals l x (some y) = true ↔ contentOf x = contentOf y := by
  constructor
  · intro h
    have := C68_equal_content l H x y hx hy h
    rwa [Fields.norm_noFloats l _ fs hf, Fields.norm_noFloats l _ fs hf] at this
  · intro h
    exact C68_content_equal l hb x y (Fields.singles_noFloats _ _ fs hf _) (by rw [h])

/-- **C68, hash codes.** Whatever the hash codes of numbers, members, strings and arrays are, equal objects have the same
hash code; in Java and Kotlin if no single float is a negative zero (`C68_zero_counterexample`). -/
theorem C68_hash (l : Lang) (h : Hashes l.enumBits) (H : Heap l.enumBits) {fs : Fields} (x y : Object l fs) (hx : H.Has x) (hy : H.Has y)
    (zx : l.cs = true ∨ fs.singles notNegZero l.enumBits (contentOf x) = true)
    (zy : l.cs = true ∨ fs.singles notNegZero l.enumBits (contentOf y) = true)
    (he : equals l x (some y) = true) : hashCode l h x = hashCode l h y :=
  Ty.objHash_eq l h H (.struct fs) (by simp) x y hx hy zx zy he

/-! ### equals, encode and decode -/

/-- **C68, Java: reading back.** An object made of what `decode` reads from the bytes of `x` equals `x`, if no single float is a NaN. The
hypotheses are those of `C53_roundtrip`. -/
theorem C68_java_roundtrip (c : JavaCfg) {fs : Fields} (hacc : fs.accepted = true) (hn : fs.noDirectDyn = true)
    {top : Bool} (hk : fs.tOk (mgSpec c.mg) top 0 = true) (hk2 : fs.tDecOk (mgDecSpec c.mg) top = true)
    (x y : Object .java fs) (hv : fs.TFits (mgGood c.mg) [] (fs.toMg c.mg (contentOf x)))
    (hsz : fs.tEncodeSize c.tgt (fs.toMg c.mg (contentOf x)) < 2 ^ 30)
    (hx : fs.singles notNaN 32 (contentOf x) = true)
    {d : Buf} {n : Nat} (h1 : fs.tEncode c.tgt (fs.toMg c.mg (contentOf x)) = some d)
    (h2 : fs.tDecode c.tgt d 0 = .ok (fs.toMg c.mg (contentOf y), n)) : equals .java x (some y) = true := by
  obtain ⟨d', e1, _, e2, _⟩ := C53_roundtrip cfg' c hacc hn hk hk2 _ hv [] [] (fun _ => rfl) (by simpa using hsz)
  rw [h1] at e1
  cases e1
  rw [List.nil_append, List.append_nil, List.length_nil, h2] at e2
  simp only [Res.ok.injEq, Prod.mk.injEq] at e2
  exact C68_content_equal .java (by intro e; cases e) x y hx (by rw [Fields.toMg_inj c.mg fs _ _ e2.1])

/-- **C68, Java: equality is equality of the bytes,** for definitions without floats. -/
theorem C68_java_bytes (c : JavaCfg) {fs : Fields} (hacc : fs.accepted = true) (hn : fs.noDirectDyn = true) (hf : fs.noFloats = true)
    {top : Bool} (hk : fs.tOk (mgSpec c.mg) top 0 = true) (hk2 : fs.tDecOk (mgDecSpec c.mg) top = true)
    (H : Heap Lang.java.enumBits) (x y : Object .java fs) (hx : H.Has x) (hy : H.Has y)
    (vx : fs.TFits (mgGood c.mg) [] (fs.toMg c.mg (contentOf x))) (sx : fs.tEncodeSize c.tgt (fs.toMg c.mg (contentOf x)) < 2 ^ 30)
    (vy : fs.TFits (mgGood c.mg) [] (fs.toMg c.mg (contentOf y))) (sy : fs.tEncodeSize c.tgt (fs.toMg c.mg (contentOf y)) < 2 ^ 30) :
    equals .java x (some y) = true ↔
      fs.tEncode c.tgt (fs.toMg c.mg (contentOf x)) = fs.tEncode c.tgt (fs.toMg c.mg (contentOf y)) := by
  refine (C68_exact .java H hf (by intro e; cases e) x y hx hy).trans ⟨fun h => by rw [h], fun h => ?_⟩
  obtain ⟨d, e1, _, e2, _⟩ := C53_roundtrip cfg' c hacc hn hk hk2 _ vx [] [] (fun _ => rfl) (by simpa using sx)
  obtain ⟨d', f1, _, f2, _⟩ := C53_roundtrip cfg' c hacc hn hk hk2 _ vy [] [] (fun _ => rfl) (by simpa using sy)
  rw [h, f1] at e1
  cases e1
  rw [f2] at e2
  simp only [Res.ok.injEq, Prod.mk.injEq] at e2
  exact (Fields.toMg_inj c.mg fs _ _ e2.1).symm

/-- **C68, Kotlin: reading back.** -/
theorem C68_kotlin_roundtrip (c : KtCfg) {fs : Fields} (hacc : fs.accepted = true) (hn : fs.noDirectDyn = true)
    (x y : Object .kotlin fs) (hv : fs.KtFits c [] (fs.asKt (contentOf x))) (hsz : fs.ktEncodeSize (fs.asKt (contentOf x)) < 2 ^ 30)
    (hx : fs.singles notNaN 64 (contentOf x) = true)
    {d : Buf} {n : Nat} (h1 : fs.ktEncode (fs.asKt (contentOf x)) = some d)
    (h2 : fs.ktDecode c d 0 = .ok (fs.asKt (contentOf y), n)) : equals .kotlin x (some y) = true := by
  obtain ⟨d', e1, e2, _⟩ := C49_roundtrip cfg' c hacc hn _ hv [] [] (by simpa using hsz)
  rw [h1] at e1
  cases e1
  rw [List.nil_append, List.append_nil, List.length_nil, h2] at e2
  simp only [Res.ok.injEq, Prod.mk.injEq] at e2
  exact C68_content_equal .kotlin (by intro e; cases e) x y hx (by rw [Fields.asKt_inj fs _ _ e2.1])

/-- **C68, Kotlin: equality is equality of the bytes.** -/
theorem C68_kotlin_bytes (c : KtCfg) {fs : Fields} (hacc : fs.accepted = true) (hn : fs.noDirectDyn = true) (hf : fs.noFloats = true)
    (H : Heap Lang.kotlin.enumBits) (x y : Object .kotlin fs) (hx : H.Has x) (hy : H.Has y)
    (vx : fs.KtFits c [] (fs.asKt (contentOf x))) (sx : fs.ktEncodeSize (fs.asKt (contentOf x)) < 2 ^ 30)
    (vy : fs.KtFits c [] (fs.asKt (contentOf y))) (sy : fs.ktEncodeSize (fs.asKt (contentOf y)) < 2 ^ 30) :
    equals .kotlin x (some y) = true ↔ fs.ktEncode (fs.asKt (contentOf x)) = fs.ktEncode (fs.asKt (contentOf y)) := by
  refine (C68_exact .kotlin H hf (by intro e; cases e) x y hx hy).trans ⟨fun h => by rw [h], fun h => ?_⟩
  obtain ⟨d, e1, e2, _⟩ := C49_roundtrip cfg' c hacc hn _ vx [] [] (by simpa using sx)
  obtain ⟨d', f1, f2, _⟩ := C49_roundtrip cfg' c hacc hn _ vy [] [] (by simpa using sy)
  rw [h, f1] at e1
  cases e1
  rw [f2] at e2
  simp only [Res.ok.injEq, Prod.mk.injEq] at e2
  exact (Fields.asKt_inj fs _ _ e2.1).symm

/-- **C68, C#: reading back,** with and without `-memcpy`, for definitions without `bytes`. -/
theorem C68_csharp_roundtrip (c : CsCfg) {fs : Fields} (hacc : fs.accepted = true) (hn : fs.noDirectDyn = true) (hb : fs.noBytes = true)
    (hk : fs.tOk (mgSpec c.mg) false 0 = true) (hk2 : fs.tDecOk (mgDecSpec c.mg) false = true)
    (x y : Nat × fs.OVal 32) (hv : fs.TFits (mgGood c.mg) [] (fs.toMg c.mg (fs.content 32 x.2)))
    (hsz : fs.tEncodeSize c.tgt (fs.toMg c.mg (fs.content 32 x.2)) < 2 ^ 30)
    (hx : fs.singles notNaN 32 (fs.content 32 x.2) = true)
    {d : Buf} {n : Nat} (h1 : fs.tEncode c.tgt (fs.toMg c.mg (fs.content 32 x.2)) = some d)
    (h2 : fs.tDecode c.tgt d 0 = .ok (fs.toMg c.mg (fs.content 32 y.2), n)) :
    equals .csArray (fs := fs) x (some y) = true ∧ equals .csSpan (fs := fs) x (some y) = true := by
  obtain ⟨d', e1, _, e2, _⟩ := C54_roundtrip cfg' c hacc hn hk hk2 _ hv [] [] (by simpa using hsz)
  rw [h1] at e1
  cases e1
  rw [List.nil_append, List.append_nil, List.length_nil, h2] at e2
  simp only [Res.ok.injEq, Prod.mk.injEq] at e2
  have e := Fields.toMg_inj c.mg fs _ _ e2.1
  have e' : fs.content 32 x.2 = fs.content 32 y.2 := e.symm
  exact ⟨C68_content_equal .csArray (fun _ => hb) x y hx (congrArg _ e'), C68_content_equal .csSpan (fun _ => hb) x y hx (congrArg _ e')⟩

/-! ### Cases -/

mutual
  /-- A value made of the number `k`. -/
  def Ty.fill (w k : Nat) : (t : Ty) → t.OVal w
    | .sc (.prim p) => BitVec.ofNat p.width k
    | .sc (.enum _) => some (BitVec.ofNat w k)
    | .str => ([BitVec.ofNat 8 k] : List Byte)
    | .bytes => (((2 * k, 0), [BitVec.ofNat 8 k]) : Ref × List Byte)
    | .struct fs => (2 * k, fs.fill w k)
  def Fields.fill (w k : Nat) : (fs : Fields) → fs.OVal w
    | .nil => ()
    | .void _ r => r.fill w k
    | .const _ _ _ _ r => r.fill w k
    | .one t _ _ r => (t.fill w k, r.fill w k)
    | .arr t n _ _ r => (List.replicate n (t.fill w k), r.fill w k)
end

/-- A heap in which the objects 2k and 2k+1 have the same content. -/
def twins (w : Nat) : Heap w := ⟨fun fs n => fs.fill w (n / 2), fun n => [BitVec.ofNat 8 (n / 2)]⟩

mutual
  theorem Ty.fill_in (l : Lang) (w k : Nat) : (t : Ty) → t.In l (twins w) (t.fill w k)
    | .sc _ => trivial
    | .str => trivial
    | .bytes => by
      show (twins w).HasBytes l (((2 * k, 0), [BitVec.ofNat 8 k]) : Ref × List Byte)
      unfold Heap.HasBytes twins
      have : 2 * k / 2 = k := by omega
      split
      · simp [this]
      · simp [this]
    | .struct fs => by
      have ih := Fields.fill_in l w k fs
      refine ⟨?_, ih⟩
      show fs.fill w k = fs.fill w (2 * k / 2)
      rw [show 2 * k / 2 = k from by omega]
  theorem Fields.fill_in (l : Lang) (w k : Nat) : (fs : Fields) → fs.In l (twins w) (fs.fill w k)
    | .nil => trivial
    | .void _ r => Fields.fill_in l w k r
    | .const _ _ _ _ r => Fields.fill_in l w k r
    | .one t _ _ r => ⟨Ty.fill_in l w k t, Fields.fill_in l w k r⟩
    | .arr t n _ _ r => by
      have ih := Ty.fill_in l w k t
      refine ⟨fun a ha => ?_, Fields.fill_in l w k r⟩
      rw [List.eq_of_mem_replicate ha]
      exact ih
end

/-- Two objects with the same content, and one with another. -/
def obj2 (l : Lang) : Object l msg := (2, msg.fill l.enumBits 1)
def obj3 (l : Lang) : Object l msg := (3, msg.fill l.enumBits 1)
def obj4 (l : Lang) : Object l msg := (4, msg.fill l.enumBits 2)

theorem obj2_in (l : Lang) : (twins l.enumBits).Has (obj2 l) :=
  ⟨show msg.fill l.enumBits 1 = msg.fill l.enumBits (2 / 2) from by rw [show 2 / 2 = 1 from rfl], Fields.fill_in l _ 1 msg⟩
theorem obj3_in (l : Lang) : (twins l.enumBits).Has (obj3 l) :=
  ⟨show msg.fill l.enumBits 1 = msg.fill l.enumBits (3 / 2) from by rw [show 3 / 2 = 1 from rfl], Fields.fill_in l _ 1 msg⟩
theorem obj4_in (l : Lang) : (twins l.enumBits).Has (obj4 l) :=
  ⟨show msg.fill l.enumBits 2 = msg.fill l.enumBits (4 / 2) from by rw [show 4 / 2 = 2 from rfl], Fields.fill_in l _ 2 msg⟩

/-- A message with every kind of field. -/
example : msg.noFloats = true ∧ equals .java (obj2 .java) (some (obj3 .java)) = true ∧ equals .java (obj2 .java) (some (obj4 .java)) = false := by decide +kernel
example (h : Hashes 32) : hashCode .java h (obj2 .java) = hashCode .java h (obj3 .java) :=
  C68_hash .java h _ _ _ (obj2_in _) (obj3_in _) (.inr (by decide +kernel)) (.inr (by decide +kernel)) (by decide +kernel)
example : contentOf (obj2 .kotlin) ≠ contentOf (obj4 .kotlin) := fun h =>
  absurd ((C68_exact .kotlin (twins 64) (by decide +kernel) (by intro e; cases e) _ _ (obj2_in _) (obj4_in _)).mpr h) (by decide +kernel)

/-- The hypotheses of `C68_java_roundtrip` are met by the message of `C53_roundtrip`. -/
def javaObj : Object .java msg :=
  (0, (1#8 : BitVec 8), some (17#32 : BitVec 32), ((1, ((5#8 : BitVec 8), ((-1234 : Int) : BitVec 16), ())) : Nat × point.OVal 32),
    [(0xABC#16 : BitVec 16), 1#16, 0xFFF#16], (((5, 0), [1#8, 0#8, 3#8]) : Ref × List Byte), ([0x68#8, 0x69#8] : List Byte),
    [((2, ([0x61#8] : List Byte), (((6, 0), [9#8]) : Ref × List Byte), ()) : Nat × entry.OVal 32), (3, ([] : List Byte), (((7, 0), []) : Ref × List Byte), ())],
    ((-70000 : Int) : BitVec 32), ())

example (y : Object .java msg) (d : Buf) (n : Nat) (h1 : msg.tEncode javaCfg.tgt (javaMsg javaCfg) = some d)
    (h2 : msg.tDecode javaCfg.tgt d 0 = .ok (msg.toMg javaCfg.mg (contentOf y), n)) : equals .java javaObj (some y) = true :=
  C68_java_roundtrip (top := true) javaCfg msg_accepted msg_noDirectDyn (by decide +kernel) (by decide +kernel) javaObj y (javaMsg_fits javaCfg rfl rfl)
    (by show msg.tEncodeSize javaCfg.tgt (javaMsg javaCfg) < 2 ^ 30
        rw [show msg.tEncodeSize javaCfg.tgt (javaMsg javaCfg) = 25 by decide +kernel]; decide)
    (by decide +kernel) h1 h2

/-! ### What is excluded -/

/-- A struct with one float. -/
def floatMsg : Fields := .one (.sc (.prim .f32)) (some 32) false .nil
def floatObj (l : Lang) (id : Nat) (b : BitVec 32) : Object l floatMsg := (id, b, ())

/-- 0.0 and -0.0 are equal but have different hash codes, in Java and Kotlin. -/
theorem C68_zero_counterexample (h : Hashes 32) (h' : Hashes 64) :
    equals .java (floatObj .java 0 0x00000000#32) (some (floatObj .java 1 0x80000000#32)) = true ∧
    hashCode .java h (floatObj .java 0 0x00000000#32) ≠ hashCode .java h (floatObj .java 1 0x80000000#32) ∧
    equals .kotlin (floatObj .kotlin 0 0x00000000#32) (some (floatObj .kotlin 1 0x80000000#32)) = true ∧
    hashCode .kotlin h' (floatObj .kotlin 0 0x00000000#32) ≠ hashCode .kotlin h' (floatObj .kotlin 1 0x80000000#32) := by
  refine ⟨by decide +kernel, ?_, by decide +kernel, ?_⟩
  · show 31#32 * 17#32 + floatHash .java .f32 0x00000000#32 ≠ 31#32 * 17#32 + floatHash .java .f32 0x80000000#32
    decide +kernel
  · show 31#32 * 17#32 + floatHash .kotlin .f32 0x00000000#32 ≠ 31#32 * 17#32 + floatHash .kotlin .f32 0x80000000#32
    decide +kernel

/-- Two objects with the same NaN are not equal, so neither is one read back from its bytes; each equals itself. -/
theorem C68_nan_counterexample (l : Lang) :
    equals l (floatObj l 0 0x7FC00000#32) (some (floatObj l 1 0x7FC00000#32)) = false ∧
    equals l (floatObj l 0 0x7FC00000#32) (some (floatObj l 0 0x7FC00000#32)) = true := by
  cases l <;> decide +kernel

/-- In C#, objects with the same `bytes` in different arrays are not equal, in Java and Kotlin they are. -/
def blobMsg : Fields := .one .bytes none false .nil
def blobObj (l : Lang) (id arr : Nat) (b : List Byte) : Object l blobMsg := (id, ((arr, 0), b), ())

theorem C68_csharp_bytes_counterexample :
    equals .csArray (blobObj .csArray 0 0 [1#8]) (some (blobObj .csArray 1 1 [1#8])) = false ∧
    equals .csSpan (blobObj .csSpan 0 0 [1#8]) (some (blobObj .csSpan 1 1 [1#8])) = false ∧
    equals .java (blobObj .java 0 0 [1#8]) (some (blobObj .java 1 1 [1#8])) = true ∧
    equals .kotlin (blobObj .kotlin 0 0 [1#8]) (some (blobObj .kotlin 1 1 [1#8])) = true := by decide +kernel

end Bubbler
