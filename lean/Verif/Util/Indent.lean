import Verif.Util.TextProofs

/-
Indentation of generated code (util/indent.go) and `iterate` and `slice` of the templates (util/template.go).  Strings are lists of characters; all the tested characters are ASCII, so working on
characters instead of UTF-8 bytes makes no difference.
-/
namespace Bubbler.Text

/-- Scan for `strings.ReplaceAll(s, old, new)` (Go standard library), `old` not empty: occurrences are
replaced from left to right and do not overlap; `skip` characters of a replaced occurrence are still to be
passed over. -/
def replaceGo (old new : Str) : Nat → Str → Str
  | _, [] => []
  | skip + 1, _ :: cs => replaceGo old new skip cs
  | 0, c :: cs =>
    if old.isPrefixOf (c :: cs) then new ++ replaceGo old new (old.length - 1) cs
    else c :: replaceGo old new 0 cs

/-- `strings.ReplaceAll(s, old, new)` for a non-empty `old` (every use in the modelled code). -/
def replaceAll (s old new : Str) : Str := replaceGo old new 0 s

/-- The four lines shared by the three functions of util/indent.go (8-14, 22-28, 39-45), for the blank `b`
(tab or space), `n` times (`strings.Repeat(b, n)`), with or without `space` in front of the text.  The
argument is taken after `fmt.Sprintf("%s", v)`. -/
def indentBy (b : Char) (n : Nat) (first : Bool) (v : Str) : Str :=
  let pad := List.replicate n b
  let s := if first then pad ++ v else v
  let s := replaceAll s ['\n'] ('\n' :: pad)
  let s := trimRight (fun c => c = b) s
  replaceAll s ('\n' :: pad ++ ['\n']) ['\n', '\n']

/-- `IndentTab` (indent.go 8-15). -/
def indentTab (v : Str) (n : Nat) : Str := indentBy '\t' n true v

/-- `IndentSpace` (indent.go 21-28). -/
def indentSpace (v : Str) (n : Nat) : Str := indentBy ' ' n true v

/-- `IndentSpaceNoFirst` (indent.go 38-45). -/
def indentSpaceNoFirst (v : Str) (n : Nat) : Str := indentBy ' ' n false v

/-- The statements of an array element are taken back by two levels before they are indented again
(generator/target/python/python.go 1288, 2087):
`strings.ReplaceAll(stmt, "\n        ", "\n")`. -/
def dedent8 (stmt : Str) : Str := replaceAll stmt ('\n' :: List.replicate 8 ' ') ['\n']

/-- `templateIterate` (template.go 42-50): the loop `for i := start; i < end; i++`, on int64 values. -/
def iterateGo (stop : BitVec 64) : Nat → BitVec 64 → List (BitVec 64)
  | 0, _ => []
  | fuel + 1, i => if i.slt stop then i :: iterateGo stop fuel (i + 1) else []

/-- The fuel is the number of turns the loop can take (it stops by itself before). -/
def iterate (start stop : BitVec 64) : List (BitVec 64) :=
  iterateGo stop ((stop.toInt - start.toInt).toNat + 1) start

/-- `templateSlice` (template.go 71-97) on a string of one-byte characters; `none`: the slice expression of
line 96, or the explicit panic of line 94, aborts the program.  Integers are unbounded here: lengths and the
positions written in the templates are far from the int64 range. -/
def slice {α : Type} (str : List α) (args : List Int) : Option (List α) :=
  let len : Int := str.length
  let start := match args with | [] => 0 | a :: _ => if a < 0 then len + a else a
  let stop := match args with | _ :: e :: _ => e | _ => 0
  let stop := if stop ≤ 0 then len + stop else stop
  if args.length ≥ 3 then none
  else if 0 ≤ start ∧ start ≤ stop ∧ stop ≤ len then some ((str.take stop.toNat).drop start.toNat) else none

end Bubbler.Text
