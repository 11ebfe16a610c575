import Verif.Front.LitSpec

/-
Specification for the float constants of C70: IEEE 754 binary64, round to nearest, ties to even; decimal fractions.
-/
namespace Bubbler.Front

/-- The distance of two numbers. -/
def dist (x y : Rat) : Rat := if x ≤ y then y - x else x - y

/-- The finite binary64 numbers that are not negative: 53 binary digits, exponents from -1074 to 971. -/
def IsFloat64 (y : Rat) : Prop := ∃ (m : Nat) (e : Int), m < 2 ^ 53 ∧ -1074 ≤ e ∧ e ≤ 971 ∧ y = (m : Rat) * (2 : Rat) ^ e

/-- `y` is the binary64 number nearest to `x`; if another one is as near, `y` is the one with the even last digit: an even multiple of the
distance between them. -/
def Nearest64 (x y : Rat) : Prop :=
  IsFloat64 y ∧ ∀ z, IsFloat64 z → dist x y ≤ dist x z ∧ (dist x y = dist x z → z ≠ y → ∃ k : Int, y = 2 * (k : Rat) * (z - y))

/-- The digits before and after the point, as a number. -/
def decimal (ip fp : Str) : Rat := (positional 10 (ip ++ fp) : Rat) / (10 : Rat) ^ fp.length

/-- `ip.fp` is the multiple of a millionth nearest to `y`, of two equally near ones the even one. -/
def NearestMillionth (y : Rat) (ip fp : Str) : Prop :=
  AllC isDec ip ∧ AllC isDec fp ∧ ip ≠ [] ∧ fp.length = 6 ∧
  ∀ j : Int, dist y (decimal ip fp) ≤ dist y ((j : Rat) / 1000000) ∧
    (dist y (decimal ip fp) = dist y ((j : Rat) / 1000000) → (j : Rat) / 1000000 ≠ decimal ip fp → positional 10 (ip ++ fp) % 2 = 0)

/-- The value of a float literal. -/
def FloatValue (t : Str) (x : Rat) : Prop :=
  ∃ m up down, FloatMeans t m up down ∧ up < 100000 ∧ down < 100000 ∧ x = (m : Rat) * 10 ^ up / 10 ^ down

end Bubbler.Front
