import Verif.Compiler.RuntimeSpec

/-
Which warnings a file deserves, read off its text from top to bottom: no visitor, no unit, no order of compilation.
-/
namespace Bubbler.Comp

/-- A name in another style than the recommended one -/
def styleW (conv : Str → Str) (n : Str) : List Warn := if conv (conv n) = n then [] else [.nameStyle n (conv (conv n))]

/-- Options bubbler does not know -/
def unknownW (known : List Str) (os : List OptA) : List Warn :=
  (os.filter fun o => o.name ∉ known).map fun o => .unknownOption o.name

/-- The file options of the manual -/
def fileOptionNames : List Str :=
  ["omit_empty".toList, "csharp_namespace".toList, "cpp_namespace".toList, "go_package".toList, "java_package".toList,
    "kotlin_package".toList]

/-- The field options of the manual -/
def fieldOptionNames : List Str := ["order".toList]

/-- An optional name -/
def optStyleW (conv : Str → Str) : Option Str → List Warn
  | some n => styleW conv n
  | none => []

/-- Custom getters and setters -/
def methodsW (ms : List MethA) : List Warn := ms.flatMap fun m => optStyleW Name.toSnake m.name

mutual
  /-- A type: a name after `struct` or `enum` is checked where it is used, a nested struct where it stands. -/
  def elemW : ElemA → List Warn
    | .basic _ => []
    | .str => []
    | .bytes => []
    | .structName n => styleW Name.toPascal n
    | .structDef d => structW d
    | .enumName n => styleW Name.toPascal n
    | .ident _ => []
  def typeW : TypeA → List Warn
    | .elem e => elemW e
    | .array e _ => elemW e
  /-- A field: its type, its name, its options, its methods -/
  def fieldW : FieldA → List Warn
    | .empty => []
    | .void _ os => unknownW fieldOptionNames os
    | .const _ n _ _ os => optStyleW Name.toSnake n ++ unknownW fieldOptionNames os
    | .embedded t os => typeW t ++ unknownW fieldOptionNames os
    | .normal t n _ os ms => typeW t ++ (styleW Name.toSnake n ++ (unknownW fieldOptionNames os ++
        (match ms with | some ms => methodsW ms | none => [])))
  def bodyW : BodyA → List Warn
    | .nil => []
    | .cons f r => fieldW f ++ bodyW r
  /-- A struct: its name, its fields -/
  def structW : StructA → List Warn
    | .mk _ _ n _ b => styleW Name.toPascal n ++ bodyW b
end

/-- An enum: its name, its values -/
def enumElemW : EnumElemA → List Warn
  | .empty => []
  | .value _ _ n _ => styleW Name.toAllCap n

def enumW (d : EnumA) : List Warn := styleW Name.toPascal d.name ++ d.body.flatMap enumElemW

def topW : TopA → List Warn
  | .struct d => structW d
  | .enum d => enumW d

/-- The warnings of the options of a file, and of its definitions -/
def headerW (f : FileA) : List Warn := unknownW fileOptionNames f.opts
def topsW (f : FileA) : List Warn := f.tops.flatMap topW

/-- **The warnings a file deserves**, in reading order -/
def fileW (f : FileA) : List Warn := headerW f ++ topsW f

/-- What is printed: a warning of the file itself, or the warnings of a file it imports. -/
inductive WTree
  | own (w : Warn)
  | importing (p : Str) (ws : List WTree)

/-- A warning printed about file `p` is true: the file deserves it, or it stands under a file that `p` imports (and
something stands there). -/
inductive WTree.Holds (fs : FS) : Str → WTree → Prop
  | own {p : Str} {f : FileA} {w : Warn} : fs p = .parsed f → w ∈ fileW f → WTree.Holds fs p (.own w)
  | importing {p q : Str} {ws : List WTree} : Imports fs p q → ws ≠ [] → (∀ t ∈ ws, WTree.Holds fs q t) →
      WTree.Holds fs p (.importing q ws)

mutual
  /-- All the warnings of a report about file `p`, each with the file it stands under, in printing order -/
  def WTree.lines : Str → WTree → List (Str × Warn)
    | p, .own w => [(p, w)]
    | _, .importing q ws => linesL q ws
  def linesL : Str → List WTree → List (Str × Warn)
    | _, [] => []
    | p, t :: r => t.lines p ++ linesL p r
end

/-- The warnings printed about file `q` in a report about file `p` -/
def about (q p : Str) (ws : List WTree) : List Warn := ((linesL p ws).filter (·.1 = q)).map (·.2)

end Bubbler.Comp
