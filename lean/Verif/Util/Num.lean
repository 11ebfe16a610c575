/-
Numbers and their text: util/size.go, generator/gen/gen_dispatcher.go FormatIntLiteral,
compiler/literal_visitor.go VisitIntLit, definition/literal.go GetMinimalTypeID,
compiler/proto_visitor.go VisitSize_.
Strings are lists of characters.  `fmt.Sprintf("%d" / "%X" / "%b")` and `strconv.ParseInt(s, 0, 64)` are
modelled here (Go standard library behaviour, part of the trusted base).
-/
namespace Bubbler.Num

abbrev Str := List Char

/-- One upper-case digit, as written by `%d`, `%b`, `%X`. -/
def digitChar (d : Nat) : Char := if d < 10 then Char.ofNat (48 + d) else Char.ofNat (55 + d)

/-- Value of a digit character (both cases). -/
def digitVal (c : Char) : Option Nat :=
  let n := c.toNat
  if 48 ≤ n ∧ n ≤ 57 then some (n - 48)
  else if 65 ≤ n ∧ n ≤ 90 then some (n - 55)
  else if 97 ≤ n ∧ n ≤ 122 then some (n - 87)
  else none

/-- Digits of a natural number, most significant first (`%d`, `%b`, `%X` of a non-negative number). -/
def digits (b n : Nat) : Str :=
  if h : n < b ∨ b < 2 then [digitChar n] else digits b (n / b) ++ [digitChar (n % b)]
termination_by n
decreasing_by exact Nat.div_lt_self (by omega) (by omega)

/-- Digits of an integer: a minus sign and the digits of the absolute value. -/
def intDigits (b : Nat) (v : Int) : Str := if v < 0 then '-' :: digits b v.natAbs else digits b v.natAbs

/-- Read digits in base `b` after having read `acc`. -/
def readFrom (b acc : Nat) : Str → Option Nat
  | [] => some acc
  | c :: cs => match digitVal c with
    | some d => if d < b then readFrom b (acc * b + d) cs else none
    | none => none

/-- A number in base `b`, at least one digit. -/
def readNat (b : Nat) : Str → Option Nat
  | [] => none
  | cs => readFrom b 0 cs

/-! ### Sizes -/

/-- `ToSizeString` (util/size.go 19-34); Go's `/` and `%` truncate towards zero. -/
def toSizeString (bitSize : Int) : Str :=
  if bitSize = -1 then "dynamic".toList else
  let bytes := bitSize.tdiv 8
  let bits := bitSize.tmod 8
  if bytes = 0 ∧ bits = 0 then "0".toList
  else if bytes = 0 then '#' :: intDigits 10 bits
  else if bits = 0 then intDigits 10 bytes
  else intDigits 10 bytes ++ '#' :: intDigits 10 bits

/-- `ToSizeStringDynamic` (util/size.go 5-16). -/
def toSizeStringDynamic (start : Int) (dynamicStart : Bool) (bitSize : Int) : Str :=
  let s := if bitSize = -1 then toSizeString start ++ "+dynamic".toList else toSizeString (bitSize + start)
  if dynamicStart then "dynamic+".toList ++ s else s

/-- `VisitSize_` (compiler/proto_visitor.go 867-907): bytes and bits, absent parts are 0; `none` = error.
int64 arithmetic wraps. -/
def visitSize (bytes bits : Option (BitVec 64)) : Option (BitVec 64) :=
  let total := (bytes.getD 0#64) * 8#64 + bits.getD 0#64
  if total = 0#64 then none else some total

/-! ### Integer literals -/

/-- `IntBase` (definition/literal.go 122-129). -/
inductive Base | auto | dec | hex | bin
deriving DecidableEq

/-- `IntLiteral` without its position. -/
structure IntLit where
  value : BitVec 64
  unsigned : Bool
  base : Base

/-- `FormatIntLiteral` (gen_dispatcher.go 56-80); `decnum` is the -decnum option. -/
def formatInt (l : IntLit) (decnum : Bool) : Str :=
  let base := if l.base = .auto ∨ decnum = true then .dec else l.base
  if l.unsigned then
    match base with
    | .hex => '0' :: 'x' :: digits 16 l.value.toNat
    | .bin => '0' :: 'b' :: digits 2 l.value.toNat
    | _ => digits 10 l.value.toNat
  else
    match base with
    | .hex => '0' :: 'x' :: intDigits 16 l.value.toInt
    | .bin => '0' :: 'b' :: intDigits 2 l.value.toInt
    | _ => intDigits 10 l.value.toInt

/-- The value a literal stands for. -/
def IntLit.int (l : IntLit) : Int := if l.unsigned then l.value.toNat else l.value.toInt

/-- `strconv.ParseUint(s, 0, 64)` without the range check and without underscores: prefixes 0x, 0b, 0o, 0. -/
def parseNat : Str → Option Nat
  | '0' :: c :: d :: cs =>
    if c = 'x' ∨ c = 'X' then readFrom 16 0 (d :: cs)
    else if c = 'b' ∨ c = 'B' then readFrom 2 0 (d :: cs)
    else if c = 'o' ∨ c = 'O' then readFrom 8 0 (d :: cs)
    else readFrom 8 0 (c :: d :: cs)
  | '0' :: cs => readFrom 8 0 cs
  | [] => none
  | cs => readFrom 10 0 cs

/-- `strconv.ParseInt(s, 0, 64)`, used by `VisitIntLit` (literal_visitor.go 125-142): range check, optional sign. -/
def parseInt (s : Str) : Option Int :=
  match s with
  | '-' :: s => (parseNat s).bind fun n => if n ≤ 2 ^ 63 then some (-n : Int) else none
  | '+' :: s => (parseNat s).bind fun n => if n < 2 ^ 63 then some (n : Int) else none
  | s => (parseNat s).bind fun n => if n < 2 ^ 63 then some (n : Int) else none

/-- `strconv.ParseUint(s, 0, 64)`. -/
def parseUint (s : Str) : Option Nat :=
  (parseNat s).bind fun n => if n < 2 ^ 64 then some n else none

/-- Integer types by width and signedness. -/
inductive IntTy | u8 | u16 | u32 | u64 | i8 | i16 | i32 | i64
deriving DecidableEq, Repr

/-- `GetMinimalTypeID` of an integer literal (definition/literal.go 189-212).  `^int8(0)` is -1 in Go. -/
def minimalType (v : Int) : IntTy :=
  if 0 ≤ v then
    if v ≤ 255 then .u8 else if v ≤ 65535 then .u16 else if v ≤ 4294967295 then .u32 else .u64
  else
    if v ≥ -1 then .i8 else if v ≥ -1 then .i16 else if v ≥ -1 then .i32 else .i64

/-- What an integer type can hold. -/
def IntTy.holds : IntTy → Int → Prop
  | .u8, v => 0 ≤ v ∧ v < 2 ^ 8
  | .u16, v => 0 ≤ v ∧ v < 2 ^ 16
  | .u32, v => 0 ≤ v ∧ v < 2 ^ 32
  | .u64, v => 0 ≤ v ∧ v < 2 ^ 64
  | .i8, v => -2 ^ 7 ≤ v ∧ v < 2 ^ 7
  | .i16, v => -2 ^ 15 ≤ v ∧ v < 2 ^ 15
  | .i32, v => -2 ^ 31 ≤ v ∧ v < 2 ^ 31
  | .i64, v => -2 ^ 63 ≤ v ∧ v < 2 ^ 63

/-- Width in bits. -/
def IntTy.width : IntTy → Nat
  | .u8 | .i8 => 8
  | .u16 | .i16 => 16
  | .u32 | .i32 => 32
  | .u64 | .i64 => 64

end Bubbler.Num
