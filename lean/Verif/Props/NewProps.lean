import Verif.Obj.FreshProofs
import Verif.Props.CodecA
import Verif.Props.JavaProps
import Verif.Props.CsProps
import Verif.Props.KtProps
import Verif.Props.PyProps
import Verif.Props.JsProps

/-
C69: new objects of the generated classes.
-/
set_option linter.unusedSimpArgs false
namespace Bubbler
open Sample

/-- A new object of the Java class (`none`: it has attributes that are arrays of null references). -/
abbrev Fields.javaNew (c : JavaCfg) (memcpy : Bool) (fs : Fields) : Option (fs.TVal c.tgt) := fs.tNew (mgNewVals c.mg memcpy)
/-- A new object of the C# class. -/
abbrev Fields.csNew (c : CsCfg) (fs : Fields) : Option (fs.TVal c.tgt) := fs.tNew (mgNewVals c.mg c.memcpy)
/-- A new object of the JavaScript class. -/
abbrev Fields.jsNew (c : JsCfg) (fs : Fields) : Option (fs.TVal (jsTgt c)) := fs.tNew (jsNewVals c)

/-- C69, Go: the zero value of a generated type is encoded, and read back as the zero value. -/
theorem C69_go (ce cd : Cfg) {fs : Fields} (hacc : fs.accepted = true) (hn : fs.noDirectDyn = true)
    (hsz : fs.encodeSize fs.zero < 2 ^ 62) : ∃ d, fs.encode ce fs.zero = some d ∧ fs.decode cd d = .ok (fs.zero, d.length) :=
  C01_roundtrip ce cd hacc hn fs.zero (Fields.zero_legal fs) (Fields.zero_inRange fs) hsz

/-- C69, Java: a new object stands for the zero value, and `encode()` returns what Go's Encode returns for it, unless
an attribute is an enum (null) or, with `-memcpy`, an array of bytes (of nulls).  (`tOk`: as in `C53_encode_agrees`.) -/
theorem C69_java (cg : Cfg) (c : JavaCfg) (memcpy : Bool) {fs : Fields} (hacc : fs.accepted = true) {top : Bool}
    (hk : fs.tOk (mgSpec c.mg) top 0 = true) (he : fs.noEnum = true) (hb : memcpy = true → fs.noByteArrs = true)
    (hsz : fs.encodeSize fs.zero < 2 ^ 30) :
    ∃ v, fs.javaNew c memcpy = some v ∧ fs.ofJava c v = fs.zero ∧ fs.tEncode c.tgt v = fs.encode cg fs.zero := by
  have ha : fs.attrs (fun arr t => (!c.mg.java || !t.isEnum) && (!memcpy || !(arr && t.isBytes))) = true := by
    cases memcpy with
    | false =>
      have : (fun (arr : Bool) (t : Ty) => (!c.mg.java || !t.isEnum) && (!false || !(arr && t.isBytes))) = fun _ t => !t.isEnum := by
        funext arr t; simp [MgCfg.java, JavaCfg.mg]
      rw [this]; exact he
    | true =>
      have := Fields.attrs_and _ _ fs he (hb rfl)
      have e : (fun (arr : Bool) (t : Ty) => (!c.mg.java || !t.isEnum) && (!true || !(arr && t.isBytes))) =
          fun a t => !t.isEnum && !(a && t.isBytes) := by
        funext arr t; simp [MgCfg.java, JavaCfg.mg]
      rw [e]; exact this
  obtain ⟨v, e, l⟩ := Fields.tNew_ok (mgNewVals_ok c.mg memcpy) fs 0 (Fields.accepted_facts hacc).1 ha
  obtain ⟨h1, _, h3⟩ := C53_encode_agrees cg c hacc hk v (l []).1
  have hz : fs.ofJava c v = fs.zero := (l []).2
  refine ⟨v, e, hz, ?_⟩
  rw [← hz] at hsz ⊢
  exact h3 (by rw [h1]; exact hsz)

/-- C69, Java: a new object with an enum attribute, at any depth, cannot be encoded: `encode` throws. -/
theorem C69_java_enum (c : JavaCfg) (memcpy : Bool) {fs : Fields} (he : fs.noEnum = false) {v : fs.TVal c.tgt}
    (hv : fs.javaNew c memcpy = some v) (d : Buf) (base : Nat) : fs.tEncodeTo c.tgt v d base = none ∧ fs.tEncode c.tgt v = none := by
  have h : ∀ d base, fs.tEncodeTo c.tgt v d base = none := fun d base => by
    unfold Fields.tEncodeTo
    rw [Fields.tEnc_throws (javaNewVals_throws c.mg rfl memcpy) fs v hv he]
  refine ⟨h d base, ?_⟩
  unfold Fields.tEncode
  split
  · rw [h]
  · rfl

/-- C69, C#: the same without exception for enums, which are 0. -/
theorem C69_cs (cg : Cfg) (c : CsCfg) {fs : Fields} (hacc : fs.accepted = true)
    (hk : fs.tOk (mgSpec c.mg) false 0 = true) (hb : c.memcpy = true → fs.noByteArrs = true)
    (hsz : fs.encodeSize fs.zero < 2 ^ 30) :
    ∃ v, fs.csNew c = some v ∧ fs.ofCs c v = fs.zero ∧ fs.tEncode c.tgt v = fs.encode cg fs.zero := by
  have hj : c.mg.java = false := by unfold CsCfg.mg MgCfg.java; cases c.memcpy <;> rfl
  have ha : fs.attrs (fun arr t => (!c.mg.java || !t.isEnum) && (!c.memcpy || !(arr && t.isBytes))) = true := by
    rw [hj]
    cases hm : c.memcpy with
    | false =>
      have : (fun (arr : Bool) (t : Ty) => (!false || !t.isEnum) && (!false || !(arr && t.isBytes))) = fun _ _ => true := by
        funext arr t; simp
      rw [this]; exact Fields.attrs_true fs
    | true =>
      have e : (fun (arr : Bool) (t : Ty) => (!false || !t.isEnum) && (!true || !(arr && t.isBytes))) =
          fun a t => !(a && t.isBytes) := by
        funext arr t; simp
      rw [e]; exact hb hm
  obtain ⟨v, e, l⟩ := Fields.tNew_ok (mgNewVals_ok c.mg c.memcpy) fs 0 (Fields.accepted_facts hacc).1 ha
  obtain ⟨h1, _, h3⟩ := C54_encode_agrees cg c hacc hk v (l []).1
  have hz : fs.ofCs c v = fs.zero := (l []).2
  refine ⟨v, e, hz, ?_⟩
  rw [← hz] at hsz ⊢
  exact h3 (by rw [h1]; exact hsz)

/-- C69, JavaScript: the same for definitions without enums and with arrays of structs only (others are new as `[]`). -/
theorem C69_js (cg : Cfg) (c : JsCfg) {fs : Fields} (hacc : fs.accepted = true) (hk : fs.tOk (jsSpec c) false 0 = true)
    (he : fs.noEnum = true) (hb : fs.onlyStructArrs = true) (hsz : fs.encodeSize fs.zero < 2 ^ 28) :
    ∃ v, fs.jsNew c = some v ∧ fs.ofJs c v = fs.zero ∧ fs.tEncode (jsTgt c) v = fs.encode cg fs.zero := by
  obtain ⟨v, e, l⟩ := Fields.tNew_ok (jsNewVals_ok c) fs 0 (Fields.accepted_facts hacc).1 (Fields.attrs_and _ _ fs he hb)
  obtain ⟨h1, _, h3⟩ := C50_encode_agrees cg c hacc hk v (l []).1
  have hz : fs.ofJs c v = fs.zero := (l []).2
  refine ⟨v, e, hz, ?_⟩
  rw [← hz] at hsz ⊢
  exact h3 (by rw [h1]; exact hsz)

/-- C69, Kotlin: the same for definitions without enums.  (`ktSafe`: as in `C49_encode_agrees`.) -/
theorem C69_kotlin (cg : Cfg) {fs : Fields} (hacc : fs.accepted = true) (hs : fs.ktSafe false false = true) (he : fs.noEnum = true)
    (hsz : fs.encodeSize fs.zero < 2 ^ 31) : fs.ofKt fs.ktNew = fs.zero ∧ fs.ktEncode fs.ktNew = fs.encode cg fs.zero := by
  obtain ⟨h1, h2⟩ := Fields.ktNew_ok fs he
  obtain ⟨e1, _, e3⟩ := C49_encode_agrees cg hacc hs fs.ktNew h1
  refine ⟨h2, ?_⟩
  rw [← h2] at hsz ⊢
  exact e3 (by rw [e1]; exact hsz)

/-- C69, Kotlin: a new object with an enum attribute, at any depth, cannot be encoded. -/
theorem C69_kotlin_enum {fs : Fields} (hacc : fs.accepted = true) (he : fs.noEnum = false) (d : Buf) (base : Nat) :
    fs.ktEncodeTo fs.ktNew d base = none ∧ fs.ktEncode fs.ktNew = none := by
  have h : ∀ d base, fs.ktEncodeTo fs.ktNew d base = none := fun d base => by
    unfold Fields.ktEncodeTo
    rw [Fields.ktEnc_throws fs 0 (Fields.accepted_facts hacc).1 he]
  refine ⟨h d base, ?_⟩
  unfold Fields.ktEncode
  split
  · rfl
  · rw [h]

/-- C69, Python: the same for definitions without enums (`None`). -/
theorem C69_python (cg : Cfg) (c : PyCfg) {fs : Fields} (hacc : fs.accepted = true) (he : fs.noEnum = true) :
    ∃ v, fs.pyNew = some v ∧ fs.ofPy v = fs.zero ∧ fs.pyEncode c v = fs.encode cg fs.zero := by
  obtain ⟨v, e, hz⟩ := Fields.pyNew_ok fs he
  refine ⟨v, e, hz, ?_⟩
  rw [← hz]
  exact (C46_encode_agrees c cg hacc v (by rw [hz]; exact Fields.zero_legal fs)).1

/-! ### The hypotheses are met -/

/-- A message without enums, with strings, bytes and arrays of structs:
`struct M { uint8 = 0x55; bool b; uint8[7] n; Point p; Entry<2> es; Point<3> ps; float64 x; int32[24] z; }` -/
def newMsg : Fields :=
  .const .u8 8 false 0x55 <| .one (.sc (.prim .bool)) (some 1) false <| .one (.sc (.prim .u8)) (some 7) false <| .one (.struct point) (some point.sum) false <|
    .arr (.struct entry) 2 none false <| .arr (.struct point) 3 (some (3 * point.sum)) false <|
    .one (.sc (.prim .f64)) (some 64) false <| .one (.sc (.prim .i32)) (some 24) true .nil

theorem newMsg_accepted : newMsg.accepted = true := by decide +kernel

theorem newMsg_size : newMsg.encodeSize newMsg.zero = 25 := by decide +kernel

example : ∃ v, newMsg.javaNew javaCfg4 true = some v ∧ newMsg.ofJava javaCfg4 v = newMsg.zero ∧
    newMsg.tEncode javaCfg4.tgt v = newMsg.encode cfg newMsg.zero :=
  C69_java cfg javaCfg4 true newMsg_accepted (top := true) (by decide +kernel) (by decide +kernel) (fun _ => by decide +kernel)
    (by rw [newMsg_size]; decide)

example : ∃ v, msg.csNew ⟨false, 2, .shift, fun s => s⟩ = some v ∧ msg.ofCs _ v = msg.zero ∧
    msg.tEncode _ v = msg.encode cfg msg.zero :=
  C69_cs cfg ⟨false, 2, .shift, fun s => s⟩ msg_accepted (by decide +kernel) nofun (by decide +kernel)

example : ∃ v, newMsg.jsNew ⟨2, fun _ => []⟩ = some v ∧ newMsg.ofJs _ v = newMsg.zero ∧
    newMsg.tEncode _ v = newMsg.encode cfg newMsg.zero :=
  C69_js cfg ⟨2, fun _ => []⟩ newMsg_accepted (by decide +kernel) (by decide +kernel) (by decide +kernel) (by rw [newMsg_size]; decide)

/-- Java's and Kotlin's new objects of a message with an enum exist, and cannot be encoded. -/
example : ∃ v, msg.javaNew javaCfg false = some v ∧ msg.tEncode javaCfg.tgt v = none := by
  obtain ⟨v, hv⟩ : ∃ v, msg.javaNew javaCfg false = some v := ⟨_, rfl⟩
  exact ⟨v, hv, (C69_java_enum javaCfg false (by decide +kernel) hv [] 0).2⟩

example : msg.ktEncode msg.ktNew = none := (C69_kotlin_enum msg_accepted (by decide +kernel) [] 0).2

/-- Kotlin: everything of fixed size comes first. -/
def newMsgK : Fields :=
  .const .u8 8 false 0x55 <| .one (.struct point) (some point.sum) false <| .arr (.sc (.prim .u16)) 3 (some 36) false <| .void 4 <|
    .one .str none false <| .arr (.struct entry) 2 none false .nil

example : newMsgK.ofKt newMsgK.ktNew = newMsgK.zero ∧ newMsgK.ktEncode newMsgK.ktNew = newMsgK.encode cfg newMsgK.zero :=
  C69_kotlin cfg (by decide +kernel) (by decide +kernel) (by decide +kernel) (by decide +kernel)

example : ∃ v, newMsg.pyNew = some v ∧ newMsg.ofPy v = newMsg.zero ∧ newMsg.pyEncode ⟨2, fun _ => true, fun _ _ => true⟩ v = newMsg.encode cfg newMsg.zero :=
  C69_python cfg _ newMsg_accepted (by decide +kernel)

/-- What is encoded: the constant, and zeros for everything else. -/
example : newMsg.encode cfg newMsg.zero = some (0x55#8 :: List.replicate 24 0#8) := by decide +kernel

end Bubbler
