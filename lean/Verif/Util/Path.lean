import Verif.Util.TextProofs

/-
fileio/path.go: from the names of files to absolute paths, with the functions of Go's path/filepath it uses (Unix).
-/
namespace Bubbler.Text

/-- `filepath.IsAbs` -/
def isAbs (p : Str) : Bool := p.head? = some '/'

/-- `filepath.Clean` -/
def cleanStr (p : Str) : Str :=
  let cs := clean (isAbs p) (splitOn '/' p)
  if isAbs p then '/' :: joinOn '/' cs else if cs = [] then ['.'] else joinOn '/' cs

/-- `filepath.Dir`: what stands before the last slash, that included, cleaned -/
def dirStr (p : Str) : Str := cleanStr (trimRight (· ≠ '/') p)

/-- `filepath.Join` of two elements: empty elements at the beginning are dropped -/
def joinStr (a b : Str) : Str :=
  if a ≠ [] then cleanStr (a ++ '/' :: b) else if b ≠ [] then cleanStr b else []

/-- `filepath.Abs`; `cwd` is what `os.Getwd` returns, `none` = it fails -/
def absStr (cwd : Option Str) (p : Str) : Option Str :=
  if isAbs p then some (cleanStr p) else cwd.map fun d => joinStr d p

/-- `GetAbsolutelyPathWithBasePath` (fileio/path.go 43-55) -/
def absFrom (cwd : Option Str) (file relative : Str) : Option Str :=
  if isAbs file then some file else absStr cwd (joinStr (dirStr relative) file)

/-- `GetAbsolutelyPath` (fileio/path.go 38-40) -/
def absPath (cwd : Option Str) (file : Str) : Option Str := absFrom cwd file []

end Bubbler.Text
