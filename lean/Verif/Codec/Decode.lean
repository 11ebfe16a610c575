import Verif.Codec.Schema

/-
Model of the generated Go methods DecodeSize and Decode.

DecodeSize is modelled with Go's wrapping 64-bit `int` (`w64`), because the value of a length
prefix is attacker controlled.
-/
namespace Bubbler

/-- Go's `int` arithmetic: wrap to 64-bit two's complement. -/
def w64 (x : Int) : Int := (x + 2 ^ 63) % 2 ^ 64 - 2 ^ 63

/-- Outcome of a piece of DecodeSize: continue with `offset`, `return r`, or a Go panic. -/
inductive ScanX where
  | ok (off : Int)
  | ret (r : Int)
  | panic
deriving DecidableEq, Repr

/-- String and bytes in DecodeSize (golang.go 1955-2026, 2053-2087): the first length check, then
the scan from index `offset + FromByte` (a negative index panics), then `offset += consumed`. -/
def leafX (leaf : Buf → Nat → Scan) (k : Nat) (d : Buf) (off : Int) : ScanX :=
  let p := w64 (off + k)
  if (d.length : Int) ≤ p then .ret (w64 (-(w64 (p + 1))))
  else if p < 0 then .panic
  else match leaf d p.toNat with
    | .ok consumed => .ok (w64 (off + consumed))
    | .ret r => .ret r
    | .panic => .panic

/-- A nested dynamic struct in DecodeSize (golang.go 2028-2049, 2088-2097): `size` is the nested
DecodeSize. -/
def subX (size : Buf → Option Int) (k : Nat) (d : Buf) (off : Int) : ScanX :=
  let subOffset := w64 (off + k)
  if (d.length : Int) > subOffset ∧ subOffset < 0 then .panic
  else
    let subData := if (d.length : Int) > subOffset then d.drop subOffset.toNat else []
    match size subData with
    | none => .panic
    | some subSize =>
      if subSize < 0 then .ret (w64 (w64 (-subOffset) + subSize))
      else .ok (w64 (off + subSize))

/-- `for _i := 0; _i < len; _i++ { f }` / `len` copies of `f`. -/
def iterX (f : Int → ScanX) : Nat → Int → ScanX
  | 0, off => .ok off
  | n + 1, off =>
    match f off with
    | .ok off => iterX f n off
    | r => r

/-- The end of DecodeSize (golang.go 2120-2133) and its early returns: `none` = panic. -/
def finishX (d : Buf) (bytes : Nat) : ScanX → Option Int
  | .panic => none
  | .ret r => some r
  | .ok off =>
    if (d.length : Int) < w64 (off + bytes) then some (w64 (-(w64 (off + bytes))))
    else some (w64 (off + bytes))

mutual
  /-- Template decoderSizeField for one element (golang.go 1950-2103). -/
  def Ty.dsElem : (t : Ty) → (k : Nat) → Buf → Int → ScanX
    | .sc _, _, _, off => .ok off
    | .str, k, d, off => leafX dsStringAt k d off
    | .bytes, k, d, off => leafX dsBytesAt k d off
    | .struct fs, k, d, off =>
      if fs.dynamic then
        subX (fun sub => finishX sub (fs.sum / 8) (fs.dsFields 0 sub 0)) k d off
      else .ok off
  /-- The fields in DecodeSize (golang.go 2112-2119): only normal fields with
  `GetFieldBitSize < 0` are scanned. -/
  def Fields.dsFields : (fs : Fields) → (start : Nat) → Buf → Int → ScanX
    | .nil, _, _, off => .ok off
    | .void n r, start, d, off => r.dsFields (start + n) d off
    | .const _ n _ _ r, start, d, off => r.dsFields (start + n) d off
    | .one _ (some n) _ r, start, d, off => r.dsFields (start + n) d off
    | .one t none _ r, start, d, off =>
      match t.dsElem (start / 8) d off with
      | .ok off => r.dsFields start d off
      | o => o
    | .arr _ _ (some n) _ r, start, d, off => r.dsFields (start + n) d off
    | .arr t len none _ r, start, d, off =>
      match iterX (fun off => t.dsElem (start / 8) d off) len off with
      | .ok off => r.dsFields start d off
      | o => o
end

/-- `DecodeSize(data)` (golang.go 2105-2135); `none` = Go panic. -/
def Fields.decodeSize (fs : Fields) (d : Buf) : Option Int :=
  if fs.dynamic then finishX d (fs.sum / 8) (fs.dsFields 0 d 0)
  else if d.length < fs.sum / 8 then some (-(fs.sum / 8 : Nat)) else some (fs.sum / 8 : Nat)

/-- Reads the elements `i, i+1, …` of an array, threading `offset`. -/
def decIdx {α : Type} (f : Nat → Nat → Res (α × Nat)) : Nat → Nat → Nat → Res (List α × Nat)
  | 0, _, off => .ok ([], off)
  | n + 1, i, off =>
    match f i off with
    | .fail => .fail
    | .panic => .panic
    | .ok (x, off) =>
      match decIdx f n (i + 1) off with
      | .fail => .fail
      | .panic => .panic
      | .ok (xs, off) => .ok (x :: xs, off)

/-- Conversion of the helper's `_v` (uint64) to the element type in a decode loop
(golang.go 117-163, 2545-2560). -/
def Sc.ofU64 (m : SignExt) (s : Sc) (n : Nat) (v : BitVec 64) : BitVec s.width :=
  if s.isBool then (if v = 0#64 then 0#_ else 1#_)
  else if s.signed then loopInt m s.width n v
  else v.setWidth s.width

/-- The statement reading element `i` of an array field (golang.go 2460-2515 dynamic loop,
2516-2565 fixed loop, 2566-2610 unrolled). -/
def arrElemDec (c : Cfg) (t : Ty) (rec : Nat → Nat → Nat → Res (t.Val × Nat))
    (len eb start : Nat) (big : Bool) (d : Buf) (i off : Nat) : Res (t.Val × Nat) :=
  if c.useLoop len then
    match t, rec with
    | .sc s, _ =>
      match bbReadFieldBits d (8 * off + (start + i * eb)) eb big with
      | none => .panic
      | some v => .ok (s.ofU64 c.signExt eb v, off)
    | .struct fs, rec =>
      if fs.dynamic then rec start eb off
      else rec (8 * (start / 8 + i * (eb / 8))) eb off
    | .str, rec => rec start eb off
    | .bytes, rec => rec start eb off
  else rec (start + i * eb) eb off

mutual
  /-- `generateDecodeNormalFieldImpl` (golang.go 2618-2785); nested structs call their own Decode
  (template decodeNormalFieldStruct 2211-2225), which starts with its own DecodeSize check
  (decoderFunc 1927-1942). -/
  def Ty.decElem (c : Cfg) : (t : Ty) → (big arr : Bool) → (d : Buf) → (start n off : Nat) →
      Res (t.Val × Nat)
    | .sc s, big, arr, d, start, n, off =>
      match decField big start n off d (c.prev (s.tempWidth arr n)) with
      | none => .panic
      | some y => .ok ((((signExtUnrolled c.signExt s.signed n y).setWidth s.width : BitVec s.width)), off)
    | .str, _, _, d, start, _, off => decString (start / 8) d off
    | .bytes, _, _, d, start, _, off => decBytes (start / 8) d off
    | .struct fs, _, _, d, start, _, off =>
      match d.from? (off + start / 8) with
      | none => .panic
      | some sub =>
        match fs.decodeSize sub with
        | none => .panic
        | some sz =>
          if sz < 0 then .fail
          else match fs.decFields c sub 0 0 with
            | .fail => .fail
            | .panic => .panic
            | .ok (v, o) => .ok (v, if fs.dynamic then off + (o + fs.sum / 8) else off)
  /-- The statements of Decode, field by field (golang.go 2138-2180). Constants: 2340-2381. -/
  def Fields.decFields (c : Cfg) : (fs : Fields) → (d : Buf) → (start off : Nat) → Res (fs.Val × Nat)
    | .nil, _, _, off => .ok ((), off)
    | .void n r, d, start, off => r.decFields c d (start + n) off
    | .const p n big val r, d, start, off =>
      match decField big start n off d (0#p.width) with
      | none => .panic
      | some y => if y.toNat = val then r.decFields c d (start + n) off else .fail
    | .one t bits big r, d, start, off =>
      match t.decElem c big false d start (bits.getD 0) off with
      | .fail => .fail
      | .panic => .panic
      | .ok (x, off) =>
        match r.decFields c d (start + bits.getD 0) off with
        | .fail => .fail
        | .panic => .panic
        | .ok (v, off) => .ok ((x, v), off)
    | .arr t len bits big r, d, start, off =>
      match decIdx (arrElemDec c t (fun from_ n off => t.decElem c big true d from_ n off)
          len (bits.getD 0 / len) start big d) len 0 off with
      | .fail => .fail
      | .panic => .panic
      | .ok (xs, off) =>
        match r.decFields c d (start + bits.getD 0) off with
        | .fail => .fail
        | .panic => .panic
        | .ok (v, off) => .ok ((xs, v), off)
end

/-- `Decode(data)` (decoderFunc, golang.go 1927-1942): the decoded value and the returned count. -/
def Fields.decode (c : Cfg) (fs : Fields) (d : Buf) : Res (fs.Val × Nat) :=
  match fs.decodeSize d with
  | none => .panic
  | some sz =>
    if sz < 0 then .fail
    else match fs.decFields c d 0 0 with
      | .fail => .fail
      | .panic => .panic
      | .ok (v, off) => .ok (v, off + fs.sum / 8)

end Bubbler
