import Verif.Front.Literal

/-
Float constants: `strconv.ParseFloat(_, 64)` (literal_visitor.go 143-161) and `fmt.Sprintf("%f", _)` (golang.go 3031-3033, c.go 3409-3411,
cpp.go 3674-3676, csharp.go 3583-3585, java.go 3333-3335, python.go 2576-2578, commonjs.go 3835-3837).

A float64 that is not negative and finite is the rational number it stands for.
-/
namespace Bubbler.Front

/-- The nearest integer; of two equally near ones the even one. -/
def halfEven (x : Rat) : Int :=
  if 2 * (x - x.floor) < 1 ∨ (2 * (x - x.floor) = 1 ∧ x.floor % 2 = 0) then x.floor else x.floor + 1

/-- The exponent of the float64 for `x`: 53 binary digits before the point after scaling, but not less than -1074 (`strconv.ParseFloat`:
`decimal.floatBits`, or equally `eiselLemire64`). -/
def floatExp (x : Rat) : Int :=
  let e : Int := (x.num.natAbs.log2 : Int) - (x.den.log2 : Int) - 53
  max (-1074) (if x < 2 ^ 53 * (2 : Rat) ^ e then e else e + 1)

/-- `strconv.ParseFloat(_, 64)` on a number that is not too large. -/
def float64 (x : Rat) : Rat := (halfEven (x / (2 : Rat) ^ floatExp x) : Rat) * (2 : Rat) ^ floatExp x

/-- The number in the text of a float (`strconv.readFloat`). -/
def floatNum (s : Str) : Rat :=
  let p := splitFloat s
  (decVal (p.1 ++ p.2.1) : Rat) * (10 : Rat) ^ (p.2.2 - p.2.1.length)

/-- `fmt.Sprintf("%f", x)`: the digits before and after the point, six after it. -/
def fmtF (x : Rat) : Str × Str :=
  let k := (halfEven (x * 1000000)).toNat
  (Num.digits 10 (k / 1000000), (Num.digits 10 (1000000 + k % 1000000)).drop 1)

end Bubbler.Front
