import Verif.Util.Text

/-
Model of util/name_style.go.  Strings are lists of characters; the grammar only produces ASCII identifiers,
for which Go's byte indices and rune indices coincide.
-/
namespace Bubbler.Name

abbrev Str := List Char

/-- `IsUpper` (5-7) -/
def isUpper (c : Char) : Bool := decide (65 ≤ c.toNat) && decide (c.toNat ≤ 90)
/-- `IsLower` (9-11) -/
def isLower (c : Char) : Bool := decide (97 ≤ c.toNat) && decide (c.toNat ≤ 122)
/-- `IsDigit` (13-15) -/
def isDigit (c : Char) : Bool := decide (48 ≤ c.toNat) && decide (c.toNat ≤ 57)

/-- `ToUpper` (21-26) -/
def toUpper (c : Char) : Char := if isLower c then Char.ofNat (c.toNat - 97 + 65) else c
/-- `ToLower` (28-33) -/
def toLower (c : Char) : Char := if isUpper c then Char.ofNat (c.toNat - 65 + 97) else c

/-- The loop of `IsAllUpper` (39-46). -/
def allUpperLoop : Str → Bool
  | [] => true
  | c :: s => if c = '_' then allUpperLoop s else if !isUpper c && !isDigit c then false else allUpperLoop s

/-- `IsAllUpper` (35-48) -/
def isAllUpper (s : Str) : Bool := if s.length = 0 then false else allUpperLoop s

/-- `IsCapitalized` (65-76): the first character that is not an underscore is upper case. -/
def isCapitalized : Str → Bool
  | [] => false
  | c :: s => if c = '_' then isCapitalized s else isUpper c

/-- `IsUncapitalized` (78-89) -/
def isUncapitalized : Str → Bool
  | [] => false
  | c :: s => if c = '_' then isUncapitalized s else isLower c

/-- `CutPrefixUnderscore` (298-311): (prefix, rest) -/
def cutPrefix : Str → Str × Str
  | [] => ([], [])
  | c :: s => if c ≠ '_' then ([], c :: s) else ((c :: (cutPrefix s).1), (cutPrefix s).2)

/-- `CutSuffixUnderscore` (313-326): (rest, suffix), scanning from the end. -/
def cutSuffix (s : Str) : Str × Str := ((cutPrefix s.reverse).2.reverse, (cutPrefix s.reverse).1.reverse)

/-- The loop of `toPascalCase` (110-133); the state is (isUpper, doCapitalize). -/
def pascalLoop (allUp : Bool) : Bool → Bool → Str → Str
  | _, _, [] => []
  | up, cap, c :: s =>
    if c = '_' then pascalLoop allUp up true s
    else if cap then toUpper c :: pascalLoop allUp (isUpper c) false s
    else if allUp && up then toLower c :: pascalLoop allUp (isUpper c) false s
    else c :: pascalLoop allUp (isUpper c) false s

/-- `strings.TrimPrefix(s, "_")` (108) -/
def trimUnderscore : Str → Str
  | '_' :: s => s
  | s => s

/-- `toPascalCase` (99-136) -/
def pascal1 (s : Str) : Str :=
  if s.length = 0 then s else
  let p := cutPrefix s
  let q := cutSuffix p.2
  p.1 ++ pascalLoop (isAllUpper q.1) false true (trimUnderscore q.1) ++ q.2

/-- The loop of `tocamelCase` (156-185); the state is (i == 0, isUpper, doCapitalize). -/
def camelLoop (allUp : Bool) : Bool → Bool → Bool → Str → Str
  | _, _, _, [] => []
  | first, up, cap, c :: s =>
    if c = '_' then camelLoop allUp false up true s
    else if first then toLower c :: camelLoop allUp false (isUpper c) cap s
    else if cap then toUpper c :: camelLoop allUp false (isUpper c) false s
    else if allUp && up then toLower c :: camelLoop allUp false (isUpper c) false s
    else c :: camelLoop allUp false (isUpper c) false s

/-- `tocamelCase` (146-188) -/
def camel1 (s : Str) : Str :=
  if s.length = 0 then s else
  let p := cutPrefix s
  let q := cutSuffix p.2
  p.1 ++ camelLoop (isAllUpper q.1) true false false q.1 ++ q.2

/-- The loop of `tosnake_case` (208-239) and of `toALLCAP_CASE` (262-293), which differ only in the case `conv`
given to the letters (`low` = snake).  The state is (i == 0, isUpper, hasUnderScore).  A character that is not upper
case is copied by the former (236) and goes through `ToUpper` in the latter (290). -/
def snakeLoop (low allUp : Bool) : Bool → Bool → Bool → Str → Str
  | _, _, _, [] => []
  | first, up, us, c :: s =>
    if c = '_' then (if !us then c :: snakeLoop low allUp false up true s else snakeLoop low allUp false up us s)
    else if first then (if low then toLower c else toUpper c) :: snakeLoop low allUp false (isUpper c) false s
    else if isUpper c then
      (if !us && !(allUp && up) then ['_'] else []) ++
        (if low then toLower c else toUpper c) :: snakeLoop low allUp false true false s
    else (if low then c else toUpper c) :: snakeLoop low allUp false false false s

/-- `tosnake_case` (198-242), `toALLCAP_CASE` (252-296) -/
def snake1 (low : Bool) (s : Str) : Str :=
  if s.length = 0 then s else
  let p := cutPrefix s
  let q := cutSuffix p.2
  p.1 ++ snakeLoop low (isAllUpper q.1) true false false q.1 ++ q.2

/-- `ToPascalCase` (91-97), `TocamelCase` (138-144), `Tosnake_case` (190-196), `ToALLCAP_CASE` (244-250): segment by
segment, split at dots. -/
def segments (f : Str → Str) (s : Str) : Str := Text.joinOn '.' ((Text.splitOn '.' s).map f)

def toPascal (s : Str) : Str := segments pascal1 s
def toCamel (s : Str) : Str := segments camel1 s
def toSnake (s : Str) : Str := segments (snake1 true) s
def toAllCap (s : Str) : Str := segments (snake1 false) s

end Bubbler.Name
