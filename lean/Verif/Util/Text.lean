/-
Text and path helpers: generator/gen/gen_ctx.go (normalisation, -rmpath), generator/gen/gen_option.go
(RemovePath), definition/package.go (relative paths).  Strings are lists of characters; all tested
characters are ASCII, so working on characters instead of UTF-8 bytes makes no difference.
-/
namespace Bubbler.Text

abbrev Str := List Char

/-! ### normalizeGeneratedIndent (gen_ctx.go 18-42) -/

/-- `strings.ReplaceAll(text, "\r\n", "\n")` (line 21). -/
def crlf : Str → Str
  | [] => []
  | '\r' :: '\n' :: cs => '\n' :: crlf cs
  | c :: cs => c :: crlf cs

/-- `strings.ReplaceAll(text, "\t", "    ")` (line 22). -/
def untab (s : Str) : Str := s.flatMap fun c => if c = '\t' then [' ', ' ', ' ', ' '] else [c]

/-- `strings.Split(s, sep)` for a one-character separator (always at least one part). -/
def splitOn (sep : Char) : Str → List Str
  | [] => [[]]
  | c :: cs => if c = sep then [] :: splitOn sep cs else
    match splitOn sep cs with
    | [] => [[c]]
    | l :: ls => (c :: l) :: ls

/-- `strings.Join(parts, sep)` for a one-character separator. -/
def joinOn (sep : Char) : List Str → Str
  | [] => []
  | [l] => l
  | l :: ls => l ++ sep :: joinOn sep ls

/-- `strings.TrimRight(s, cutset)`. -/
def trimRight (p : Char → Bool) (s : Str) : Str := (s.reverse.dropWhile p).reverse

/-- The loop over lines (lines 27-38), with the counter `blankLines`. -/
def squeeze : Nat → List Str → List Str
  | _, [] => []
  | k, line :: ls =>
    let line := trimRight (fun c => c = ' ' || c = '\t') line
    if line = [] then
      if k + 1 > 2 then squeeze (k + 1) ls else line :: squeeze (k + 1) ls
    else line :: squeeze 0 ls

/-- `normalizeGeneratedIndent` (lines 18-42). -/
def normalize (text : Str) : Str :=
  let text := crlf text
  let text := untab text
  let lines := splitOn '\n' text
  let normalized := squeeze 0 lines
  trimRight (fun c => c = '\n') (joinOn '\n' normalized) ++ ['\n']

/-! ### -rmpath (gen_ctx.go 55-72, gen_option.go 68-80) -/

/-- Remove all leading slashes (gen_ctx.go 60-62). -/
def stripSlashes (s : Str) : Str := s.dropWhile (· = '/')

/-- The loop of `WriteFile` (gen_ctx.go 57-65). -/
def rmPath : List Str → Str → Str
  | [], file => file
  | p :: ps, file => if p.isPrefixOf file then stripSlashes (file.drop p.length) else rmPath ps file

/-- `RemovePath` (gen_option.go 68-80): split at commas, drop trailing slashes. -/
def parseRmPath (path : Str) : List Str := (splitOn ',' path).map (trimRight (· = '/'))

/-- Lexical cleaning of the components of a path, as `filepath.Join`/`Clean` do (Go standard library):
empty and `.` components vanish, `..` removes the previous component (kept if there is none and the path
is not rooted). -/
def cleanStep (rooted : Bool) (stack : List Str) (c : Str) : List Str :=
  if c = [] ∨ c = ['.'] then stack
  else if c = ['.', '.'] then
    match stack.getLast? with
    | none => if rooted then [] else [c]
    | some l => if l = ['.', '.'] then stack ++ [c] else stack.dropLast
  else stack ++ [c]

/-- Components of the cleaned path. -/
def clean (rooted : Bool) (comps : List Str) : List Str := comps.foldl (cleanStep rooted) []

/-- `filepath.Join(out, file)` (gen_ctx.go 70), as a list of components. -/
def joinPath (rooted : Bool) (out file : Str) : List Str := clean rooted (splitOn '/' out ++ splitOn '/' file)

/-! ### Packages (definition/package.go) -/

/-- `Package`: the path and the name of com.example.pkg (lines 7-13); `full = path ++ [name]` (26-30). -/
structure Pkg where
  path : List Str
  name : Str

def Pkg.full (p : Pkg) : List Str := p.path ++ [p.name]

/-- `Difference` (lines 57-77): the loops over the two paths. -/
def differencePaths : List Str → List Str → List Str
  | a :: as, b :: bs => if a = b then differencePaths as bs else (a :: as).map (fun _ => ['.', '.']) ++ (b :: bs)
  | as, bs => as.map (fun _ => ['.', '.']) ++ bs

def Pkg.difference (p other : Pkg) : List Str := differencePaths p.path other.path ++ [other.name]

/-- `ToFilePath` (lines 91-93). -/
def Pkg.toFilePath (p : Pkg) (ext : Str) : Str := joinOn '/' p.full ++ ext

/-- `ToRelativePath` (lines 110-113). -/
def Pkg.toRelativePath (p other : Pkg) (ext : Str) : Str := joinOn '/' (p.difference other) ++ ext

/-- `ToRelativePathStrict` (lines 99-105). -/
def Pkg.toRelativePathStrict (p other : Pkg) (ext : Str) : Str :=
  let path := p.toRelativePath other ext
  if ['.', '.'].isPrefixOf path then path else '.' :: '/' :: path

/-- `ToPyRelativePath` (lines 119-131). -/
def Pkg.toPyRelativePath (p other : Pkg) (ext : Str) : Str :=
  let diff := p.difference other
  let n := (diff.takeWhile (· = ['.', '.'])).length
  '.' :: List.replicate n '.' ++ joinOn '.' (diff.drop n) ++ ext

/-- `PackageEquals` (lines 33-43). -/
def pkgEqLoop : List Str → List Str → Bool
  | [], _ => true
  | a :: as, b :: bs => if a ≠ b then false else pkgEqLoop as bs
  | _ :: _, [] => true

def Pkg.equals (p q : Pkg) : Bool := if p.full.length ≠ q.full.length then false else pkgEqLoop p.full q.full

end Bubbler.Text
