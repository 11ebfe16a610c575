import Verif.Codec.Decode

/-
Model of util/calc.go (`Calculate`, the template function `calc`, util/template.go 67-69) and of the conversions of util/type.go
it uses.

The arguments are dynamically typed Go values.  Floating point is a parameter (`FOps`): IEEE arithmetic is not modelled, and
nothing that is proved depends on what it does.  Named types and uncomparable values are not modelled.
-/
namespace Bubbler.Calc

abbrev Str := List Char

/-- The Go integer types, util/type.go 3-28 -/
inductive IK | int | int8 | int16 | int32 | int64 | uint | uint8 | uint16 | uint32 | uint64
deriving DecidableEq, Repr

/-- Go's float64, its operations and its comparisons -/
structure FOps where
  F : Type
  ofInt : Int → F
  add : F → F → F
  sub : F → F → F
  mul : F → F → F
  div : F → F → F
  neg : F → F
  lt : F → F → Bool
  le : F → F → Bool
  eq : F → F → Bool
  isZero : F → Bool

variable {O : FOps}

/-- `interface{}` -/
inductive V (O : FOps)
  | nil
  | str (s : Str)
  | bool (b : Bool)
  | int (k : IK) (x : Int)
  | f32 (x : O.F)
  | f64 (x : O.F)

/-- `ToInt64` (type.go 3-28); `none` = panic -/
def toInt64 : V O → Option Int
  | .int _ x => some (w64 x)
  | _ => none

/-- `ToFloat64` (type.go 273-302) -/
def toFloat : V O → Option O.F
  | .f64 x => some x
  | .f32 x => some x
  | .int _ x => some (O.ofInt x)
  | _ => none

/-- `ToBool` (type.go 335-366) -/
def toBool : V O → Option Bool
  | .bool b => some b
  | .int _ x => some (x != 0)
  | .f64 x => some (!O.isZero x)
  | .f32 x => some (!O.isZero x)
  | _ => none

/-- `IsFloat` (type.go 404-411) -/
def isFloat : V O → Bool
  | .f32 _ => true
  | .f64 _ => true
  | _ => false

/-- `==` on interfaces: dynamic types and values agree -/
def goEq : V O → V O → Bool
  | .nil, .nil => true
  | .str s, .str t => s == t
  | .bool a, .bool b => a == b
  | .int k x, .int l y => k == l && x == y
  | .f32 x, .f32 y => O.eq x y
  | .f64 x, .f64 y => O.eq x y
  | _, _ => false

/-- `f(ToInt64(a), ToInt64(b))`, an int64 -/
def intOp (f : Int → Int → Option Int) (a b : V O) : Option (V O) := do
  let x ← toInt64 a
  let y ← toInt64 b
  let z ← f x y
  some (.int .int64 (w64 z))

/-- The arithmetic of calc.go 190-239: in floating point if one operand is a float. -/
def arith (f : Int → Int → Option Int) (g : O.F → O.F → O.F) (a b : V O) : Option (V O) :=
  if isFloat a || isFloat b then do
    let x ← toFloat a
    let y ← toFloat b
    some (.f64 (g x y))
  else intOp f a b

/-- The comparisons of calc.go 140-172 -/
def compare (f : Int → Int → Bool) (g : O.F → O.F → Bool) (a b : V O) : Option (V O) :=
  if isFloat a || isFloat b then do
    let x ← toFloat a
    let y ← toFloat b
    some (.bool (g x y))
  else do
    let x ← toInt64 a
    let y ← toInt64 b
    some (.bool (f x y))

/-- Bitwise operations of int64 -/
def bitOp (f : BitVec 64 → BitVec 64 → BitVec 64) (x y : Int) : Option Int := some (f (BitVec.ofInt 64 x) (BitVec.ofInt 64 y)).toInt

/-- int64 `/` (truncating; panics on zero) and `%` -/
def goDiv (x y : Int) : Option Int := if y = 0 then none else some (x.tdiv y)
def goMod (x y : Int) : Option Int := if y = 0 then none else some (x.tmod y)

/-- int64 `<<` and `>>`: a negative count panics, a large one shifts everything out. -/
def goShl (x y : Int) : Option Int := if y < 0 then none else some (if 64 ≤ y then 0 else x * 2 ^ y.toNat)
def goShr (x y : Int) : Option Int := if y < 0 then none else some (x / 2 ^ y.toNat)

/-- The operators of the binary levels, from `calcOr` (0) to `calcMultiplicative` (9); calc.go 60-239.
`||` and `&&` do not convert the second operand when the first decides. -/
def binop : Nat → Str → Option (V O → V O → Option (V O))
  | 0, s => if s = ['|', '|'] ∨ s = ['o', 'r'] then
      some (fun a b => (toBool a).bind fun x => if x then some (.bool true) else (toBool b).map .bool) else none
  | 1, s => if s = ['&', '&'] ∨ s = ['a', 'n', 'd'] then
      some (fun a b => (toBool a).bind fun x => if x then (toBool b).map .bool else some (.bool false)) else none
  | 2, s => if s = ['|'] then some (intOp (bitOp (· ||| ·))) else none
  | 3, s => if s = ['^'] then some (intOp (bitOp (· ^^^ ·))) else none
  | 4, s => if s = ['&'] then some (intOp (bitOp (· &&& ·))) else none
  | 5, s => if s = ['=', '='] then some (fun a b => some (.bool (goEq a b)))
      else if s = ['!', '='] then some (fun a b => some (.bool (!goEq a b))) else none
  | 6, s => if s = ['<'] then some (compare (fun x y => decide (x < y)) O.lt)
      else if s = ['>'] then some (compare (fun x y => decide (y < x)) (fun x y => O.lt y x))
      else if s = ['<', '='] then some (compare (fun x y => decide (x ≤ y)) O.le)
      else if s = ['>', '='] then some (compare (fun x y => decide (y ≤ x)) (fun x y => O.le y x)) else none
  | 7, s => if s = ['<', '<'] then some (intOp goShl) else if s = ['>', '>'] then some (intOp goShr) else none
  | 8, s => if s = ['+'] then some (arith (fun x y => some (x + y)) O.add)
      else if s = ['-'] then some (arith (fun x y => some (x - y)) O.sub) else none
  | 9, s => if s = ['*'] then some (arith (fun x y => some (x * y)) O.mul)
      else if s = ['/'] then some (arith goDiv O.div)
      else if s = ['%'] then some (intOp goMod) else none
  | _, _ => none

/-- The operator at the head of the remaining arguments, for level `l` (`switch c.Peek()`) -/
def peekOp (l : Nat) : List (V O) → Option (V O → V O → Option (V O))
  | .str s :: _ => binop l s
  | _ => none

/-- A value and the remaining arguments -/
abbrev R (O : FOps) (a : List (V O)) := Option (V O × { r : List (V O) // r.length ≤ a.length })

theorem peekOp_cons {l : Nat} {r : List (V O)} {op} (h : peekOp l r = some op) : r.tail.length < r.length := by
  cases r with
  | nil => simp [peekOp] at h
  | cons x r => simp

mutual
  /-- `calcTenary` (calc.go 40-55).  What stands for `:` is skipped without being checked. -/
  def calcTern (a : List (V O)) : R O a :=
    match calcBin 0 a with
    | none => none
    | some (x, ⟨r, hr⟩) =>
      match r, hr with
      | .str ['?'] :: r1, hr =>
        match calcTern r1 with
        | none => none
        | some (y, ⟨r2, h2⟩) =>
          match calcTern r2.tail with
          | none => none
          | some (z, ⟨r3, h3⟩) =>
            match toBool x with
            | none => none
            | some b => some (if b then y else z, ⟨r3, by simp only [List.length_cons, List.length_tail] at *; omega⟩)
      | r, hr => some (x, ⟨r, hr⟩)
  termination_by (a.length, 14)
  decreasing_by
    all_goals (try simp_wf)
    all_goals (try simp only [Prod.lex_def, List.length_cons, List.length_tail] at *)
    all_goals (first | omega | exact Or.inr ⟨trivial, by omega⟩)
  /-- `calcOr` (0) to `calcMultiplicative` (9) (calc.go 57-239): one operand of the next level, and if an operator of this level
  follows, an operand of this level. -/
  def calcBin (l : Nat) (a : List (V O)) : R O a :=
    if hl : l < 10 then
      match calcBin (l + 1) a with
      | none => none
      | some (x, ⟨r, hr⟩) =>
        match hp : peekOp l r with
        | none => some (x, ⟨r, hr⟩)
        | some op =>
          have := peekOp_cons hp
          match calcBin l r.tail with
          | none => none
          | some (y, ⟨r2, h2⟩) =>
            match op x y with
            | none => none
            | some z => some (z, ⟨r2, by omega⟩)
    else calcUnary a
  termination_by (a.length, 10 - l + 2)
  decreasing_by
    all_goals (try simp_wf)
    all_goals (try simp only [Prod.lex_def, List.length_cons] at *)
    all_goals (first | omega | exact Or.inr ⟨trivial, by omega⟩)
  /-- `calcUnary` (calc.go 241-263) and `calcPrimary` (265-277) -/
  def calcUnary (a : List (V O)) : R O a :=
    match a with
    | .str ['+'] :: r =>
      match calcUnary r with
      | none => none
      | some (x, ⟨r2, h2⟩) => some (x, ⟨r2, by simp only [List.length_cons]; omega⟩)
    | .str ['-'] :: r =>
      match calcUnary r with
      | none => none
      | some (x, ⟨r2, h2⟩) =>
        if r.head?.any isFloat then
          (toFloat x).map fun y => (.f64 (O.neg y), ⟨r2, by simp only [List.length_cons]; omega⟩)
        else (toInt64 x).map fun y => (.int .int64 (w64 (-y)), ⟨r2, by simp only [List.length_cons]; omega⟩)
    | .str ['~'] :: r =>
      match calcUnary r with
      | none => none
      | some (x, ⟨r2, h2⟩) => (toInt64 x).map fun y => (.int .int64 (w64 (-y - 1)), ⟨r2, by simp only [List.length_cons]; omega⟩)
    | .str ['!'] :: r =>
      match calcUnary r with
      | none => none
      | some (x, ⟨r2, h2⟩) => (toBool x).map fun y => (.bool (!y), ⟨r2, by simp only [List.length_cons]; omega⟩)
    | .str ['('] :: r =>
      match calcTern r with
      | none => none
      | some (x, ⟨r2, h2⟩) =>
        match r2, h2 with
        | .str [')'] :: r3, h2 => some (x, ⟨r3, by simp only [List.length_cons] at *; omega⟩)
        | _, _ => none
    | [] => some (.nil, ⟨[], by simp⟩)
    | x :: r => some (x, ⟨r, by simp⟩)
  termination_by (a.length, 1)
  decreasing_by
    all_goals (try simp_wf)
    all_goals (try simp only [Prod.lex_def, List.length_cons] at *)
    all_goals (first | omega | exact Or.inr ⟨trivial, by omega⟩)
end

/-- `Calculate(args...)` (calc.go 8-13) -/
def calculate (a : List (V O)) : Option (V O) := (calcTern a).map (·.1)

end Bubbler.Calc
