import Verif.Compiler.Layout

/-
Concrete definitions used to show that the hypotheses of the compiler theorems can be met.
-/
namespace Bubbler.Comp.Sample

def u0 : UnitD := UnitD.new ['m', '.', 'b', 'b']

def bitsSize (t : Str) : SizeA := ⟨none, some t⟩
def bytesSize (t : Str) : SizeA := ⟨some t, none⟩

/-- `struct Head { bool valid[#1]; void[#3]; uint8 kind[#4]; int64 n[6]; }` -/
def head : StructA := .mk 3 0 ['H', 'e', 'a', 'd'] none
  (.cons (.normal (.elem (.basic .bool)) ['v'] (some (bitsSize ['1'])) [] none)
  (.cons (.void (bitsSize ['3']) [])
  (.cons (.normal (.elem (.basic .u8)) ['k'] (some (bitsSize ['4'])) [⟨['o', 'r', 'd', 'e', 'r'], .str (some ['b', 'i', 'g'])⟩] none)
  (.cons (.normal (.elem (.basic .i64)) ['n'] (some (bytesSize ['6'])) []
      (some [⟨false, some ['g'], .f64, true⟩]))
  .nil))))

/-- `struct Msg { Head; uint8 a[#4]; uint8 b[#4]; string s; int8<3> arr; bytes<2> t; }` -/
def msg : StructA := .mk 9 0 ['M', 's', 'g'] none
  (.cons (.embedded (.elem (.ident ['H', 'e', 'a', 'd'])) [])
  (.cons (.normal (.elem (.basic .u8)) ['a'] (some (bitsSize ['4'])) [] none)
  (.cons (.normal (.elem (.basic .u8)) ['b'] (some (bitsSize ['4'])) [] none)
  (.cons (.normal (.elem .str) ['s'] none [] none)
  (.cons (.normal (.array (.basic .i8) ['3']) ['x'] none [] none)
  (.cons .empty
  (.cons (.normal (.array .bytes ['2']) ['t'] none [] none)
  .nil)))))))

/-- The definition of an accepted struct -/
def out (r : Out StructD × UnitD) : StructD :=
  match r.1 with
  | .ok s => s
  | _ => .mk [] 0 false []

def isOk {α : Type} : Out α → Bool
  | .ok _ => true
  | _ => false

theorem of_isOk {d : StructA} {u : UnitD} (h : isOk (visitStruct d u).1 = true) :
    visitStruct d u = (.ok (out (visitStruct d u)), (visitStruct d u).2) := by
  rcases k : visitStruct d u with ⟨o, u'⟩
  rw [k] at h
  cases o with
  | ok s => rfl
  | err es => simp [isOk] at h
  | panic => simp [isOk] at h

def headD : StructD := out (visitStruct head u0)
/-- the unit after `Head` -/
def u1 : UnitD := ((visitStruct head u0).2.addLocalType ⟨⟨u0.path, 3, 0⟩, .struct headD⟩).1
def msgD : StructD := out (visitStruct msg u1)

theorem head_ok : visitStruct head u0 = (.ok headD, (visitStruct head u0).2) := of_isOk (by decide +kernel)
theorem msg_ok : visitStruct msg u1 = (.ok msgD, (visitStruct msg u1).2) := of_isOk (by decide +kernel)

theorem msg_facts : msgD.bits = 88 ∧ msgD.dyn = true ∧ total msgD.fields = 88 ∧ msgD.fields.length = 10 := by
  refine ⟨by decide +kernel, by decide +kernel, by decide +kernel, by decide +kernel⟩

end Bubbler.Comp.Sample
