import Verif.Expr.Model
import Verif.Front.Float

/-
Method expressions from the text of the source: the lexer and the parser (Verif/Front), then the visitor and the printers (Verif/Expr/Model).
-/
namespace Bubbler.Front

/-- The text of an expression alone, as `expr(0)` (bubbler_parser.go 7110) reads it inside a file. -/
def readExpr (s : Str) : Option Expr :=
  match lex s with
  | none => none
  | some ts => match exprP (3 * ts.length + 1) 0 (ts.map mkTok) with
    | some (e, []) => some e
    | _ => none

/-- `constant` for the visitor of expressions (literal_visitor.go 25-120).  A float is parsed and printed with six decimals, as all targets but
ES modules and Kotlin do.  Left out: strings, `inf` and `nan`. -/
def Const.ex : Const → Option Ex.ConstE
  | .int sg t => some (.int (sg == some true) t)
  | .float sg t =>
    if t = "inf".toList ∨ t = "nan".toList then none
    else if floatOk t then some (.float (sg == some true) (fmtF (float64 (floatNum t))).1 (fmtF (float64 (floatNum t))).2)
    else none
  | .bool b => some (.bool b)
  | .str _ => none

/-- The tree the visitor of expressions (proto_visitor.go 1289-1944) is given. -/
def Expr.ex : Expr → Option Ex.ExprA
  | .value => some .value
  | .const c => c.ex.map .const
  | .parens e => e.ex.map .parens
  | .unary op e => e.ex.map (.unary op)
  | .cast p e => e.ex.map (.cast p)
  | .binary op a b => match a.ex, b.ex with
    | some x, some y => some (.binary op x y)
    | _, _ => none
  | .ternary c a b => match c.ex, a.ex, b.ex with
    | some x, some y, some z => some (.ternary x y z)
    | _, _, _ => none

/-- The text a target writes for the text of an expression in a method of type `ty`; `val` is what it writes for `value`. -/
def srcMethod (P : Ex.Target) (val : Str) (ty : Prim) (s : Str) : Option Str :=
  match readExpr s with
  | none => none
  | some e => match e.ex with
    | none => none
    | some x => P.method val ty x

end Bubbler.Front
