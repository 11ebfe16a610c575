import Verif.Codec.Legal

/-
A concrete, non-trivial message used to show that the hypotheses of the codec theorems are met.

  struct Point[2]  { uint8 x[#3]; int16 y[#13]; }
  struct Entry     { string name; bytes body; }
  struct Msg {
    uint8 MAGIC = 0xA5; bool flag[#1]; void[#2]; E e (5-bit enum);
    Point p; uint16 xs[3] [#36] big; void[#4]; bytes b; string s; Entry items[2]; int32 z[#24] big; }
-/
namespace Bubbler.Sample

def point : Fields :=
  .one (.sc (.prim .u8)) (some 3) false <| .one (.sc (.prim .i16)) (some 13) false <| .nil

def entry : Fields := .one .str none false <| .one .bytes none false <| .nil

def msg : Fields :=
  .const .u8 8 false 0xA5 <|
  .one (.sc (.prim .bool)) (some 1) false <|
  .void 2 <|
  .one (.sc (.enum 5)) (some 5) false <|
  .one (.struct point) (some 16) false <|
  .arr (.sc (.prim .u16)) 3 (some 36) true <|
  .void 4 <|
  .one .bytes none false <|
  .one .str none false <|
  .arr (.struct entry) 2 none false <|
  .one (.sc (.prim .i32)) (some 24) true <| .nil

def pointVal : point.Val := (5#8, ((-1234 : Int) : BitVec 16), ())

def entryVal (a b : List Byte) : entry.Val := (a, b, ())

def msgVal : msg.Val :=
  ((1#8 : BitVec 8), (17#8 : BitVec (goUintWidth 5)), pointVal, [(0xABC#16 : BitVec 16), 1#16, 0xFFF#16],
    ([1#8, 0#8, 3#8] : List Byte), ([0x68#8, 0x69#8] : List Byte),
    [entryVal [0x61#8] [9#8], entryVal [] []], ((-70000 : Int) : BitVec 32), ())

theorem msg_accepted : msg.accepted = true := by decide +kernel
theorem msg_noDirectDyn : msg.noDirectDyn = true := by decide +kernel

theorem msg_legal : msg.Legal msgVal := by
  refine ⟨fun _ => by decide +kernel, nofun, ⟨nofun, nofun, trivial⟩, rfl, fun _ _ => nofun, ?_, trivial, rfl, ?_, nofun, trivial⟩
  · exact Nat.le_of_ble_eq_true rfl
  · intro x hx
    rcases List.mem_cons.mp hx with rfl | hx
    · exact ⟨trivial, Nat.le_of_ble_eq_true rfl, trivial⟩
    · rcases List.mem_cons.mp hx with rfl | hx
      · exact ⟨trivial, Nat.le_of_ble_eq_true rfl, trivial⟩
      · cases hx

theorem msg_inRange : msg.InRange msgVal := by
  refine ⟨by show (1#8).toNat < 2 ^ 1; decide, by show (17#8).toNat < 2 ^ 5; decide,
    ⟨by show (5#8).toNat < 2 ^ 3; decide,
     by show -(2 : Int) ^ 12 ≤ (((-1234 : Int) : BitVec 16)).toInt ∧ (((-1234 : Int) : BitVec 16)).toInt < (2 : Int) ^ 12; decide +kernel, trivial⟩,
    ?_, trivial, by show ¬ (0#8 ∈ [0x68#8, 0x69#8]); decide, ?_,
    by show -(2 : Int) ^ 23 ≤ (((-70000 : Int) : BitVec 32)).toInt ∧ (((-70000 : Int) : BitVec 32)).toInt < (2 : Int) ^ 23; decide +kernel, trivial⟩
  · intro x hx
    show BitVec.toNat x < 2 ^ 12
    have : ∀ x ∈ [(0xABC#16 : BitVec 16), 1#16, 0xFFF#16], x.toNat < 2 ^ 12 := by simp
    exact this x hx
  · intro x hx
    rcases List.mem_cons.mp hx with rfl | hx
    · exact ⟨by show ¬ (0#8 ∈ [0x61#8]); decide, trivial, trivial⟩
    · rcases List.mem_cons.mp hx with rfl | hx
      · exact ⟨by show ¬ (0#8 ∈ ([] : List Byte)); decide, trivial, trivial⟩
      · cases hx

theorem msg_size_eq : msg.encodeSize msgVal = 25 := by
  have l : ∀ n, n < 128 → lenExtra n = 0 := by
    intro n h; unfold lenExtra; simp [Nat.shiftRight_eq_div_pow]; omega
  simp [Fields.encodeSize, msg, msgVal, entryVal, entry, point, Fields.dynamic, Ty.dynamic, Fields.sum, Fields.sizeExtra, Ty.sizeExtra, l, pointVal]
  show 12 + (0 + (4 + (3 + ((1 + 1 + (1 + 1 + lenExtra 1)) + ((0 + 1 + (0 + 1 + lenExtra 0)) + 0))))) = 25
  rw [l 1 (by omega), l 0 (by omega)]

theorem msg_size : msg.encodeSize msgVal < 2 ^ 62 := by rw [msg_size_eq]; omega

/-- Default options: unroll up to 4, shift sign extension (`prev` = zeroed variables). -/
def cfg : Cfg := ⟨4, .shift, fun _ => 0⟩
/-- Never unroll, arithmetic sign extension, dirty variables. -/
def cfg' : Cfg := ⟨0, .arith, fun w => BitVec.allOnes w⟩

end Bubbler.Sample
