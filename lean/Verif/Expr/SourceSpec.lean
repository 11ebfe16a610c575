import Verif.Expr.Read
import Verif.Front.Tree
import Verif.Front.FloatSpec

/-
Specification for C70: what is kept of a written expression.
-/
namespace Bubbler.Front
open Ex (Tree intTree)

/-- A float literal is written with its sign. -/
def signed (sg : Option Bool) (t : Tree) : Tree := if sg = some true then .un .SUB t else t

/-- The written expression `e` means the tree: the same operators applied to the same operands in the same order, integers with their
values, floats rounded to a float64 and then to six decimals, parentheses only as grouping.  `val` is what `value` stands for, `tn` names the
types, `ct` is the type a conditional carries, `wide` says if integers of more than 32 bits have a suffix. -/
inductive Kept (val : Tree) (tn : Prim → Str) (ct : Expr → Option Str) (wide : Bool) : Expr → Tree → Prop
  | value : Kept val tn ct wide .value val
  | int {sg t n} : IntMeans t n → Kept val tn ct wide (.const (.int sg t)) (intTree wide (if sg = some true then -(n : Int) else n))
  | float {sg t x y ip fp} : FloatValue t x → Nearest64 x y → NearestMillionth y ip fp →
      Kept val tn ct wide (.const (.float sg t)) (signed sg (.flt ip fp))
  | bool {b} : Kept val tn ct wide (.const (.bool b)) (.bool b)
  | parens {e t} : Kept val tn ct wide e t → Kept val tn ct wide (.parens e) t
  | unary {op e t} : Kept val tn ct wide e t → Kept val tn ct wide (.unary op e) (.un op t)
  | cast {p e t} : Kept val tn ct wide e t → Kept val tn ct wide (.cast p e) (.conv (tn p) t)
  | binary {op a b x y} : Kept val tn ct wide a x → Kept val tn ct wide b y → Kept val tn ct wide (.binary op a b) (.bin op x y)
  | ternary {c a b x y z} : Kept val tn ct wide c x → Kept val tn ct wide a y → Kept val tn ct wide b z →
      Kept val tn ct wide (.ternary c a b) (.cond (ct a) x y z)

/-- A constant with a minus sign; `-0` is written as `0`. -/
def Expr.minusLit : Expr → Prop
  | .const (.int sg t) => sg = some true ∧ ∃ n, IntMeans t n ∧ n ≠ 0
  | .const (.float sg _) => sg = some true
  | .parens e => e.minusLit
  | _ => False

/-- An operator applied to something, a conditional. -/
def Expr.compound : Expr → Prop
  | .parens e => e.compound
  | .unary _ _ | .binary _ _ _ | .ternary _ _ _ => True
  | _ => False

/-- The constants: integers below 2⁶³, floats a float64 can hold, booleans.  Not in hexadecimal with a minus sign. -/
def Const.Fine : Const → Prop
  | .int sg t => ∃ n, IntMeans t n ∧ n < 2 ^ 63 ∧ (sg = some true → n = 0 ∨ ¬ ∃ x cs, t = '0' :: x :: cs ∧ (x = 'x' ∨ x = 'X'))
  | .float _ t => ∃ x, FloatValue t x ∧ x < 2 ^ 1024 - 2 ^ 970
  | .bool _ => True
  | .str _ => False

/-- Constants the lexer can give: numbers (with exponents below 100000), strings, booleans. -/
def Const.Token : Const → Prop
  | .int _ t => IsInt t
  | .float _ t => t = "inf".toList ∨ t = "nan".toList ∨ ∃ x, FloatValue t x
  | .bool _ => True
  | .str t => IsStr t

/-- Constants with a value: integers below 2⁶³, floats a float64 can hold (also `inf` and `nan`), strings whose escapes mean something. -/
def Const.HasValue : Const → Prop
  | .int _ t => ∃ n, IntMeans t n ∧ n < 2 ^ 63
  | .float _ t => ∀ x, FloatValue t x → x < 2 ^ 1024 - 2 ^ 970
  | .bool _ => True
  | .str t => ∃ q b v, t = q :: (b ++ [q]) ∧ Means b v

/-- The constants of an expression. -/
def Expr.consts : Expr → List Const
  | .value => []
  | .const c => [c]
  | .parens e => e.consts
  | .unary _ e => e.consts
  | .cast _ e => e.consts
  | .binary _ a b => a.consts ++ b.consts
  | .ternary c a b => c.consts ++ (a.consts ++ b.consts)

/-- What a target cannot write. -/
structure Weak where
  /-- `-` directly before a constant with a minus sign -/
  minus : Bool := false
  /-- a constant with a minus sign as the base of `**` -/
  power : Bool := false
  /-- `!` before a single value -/
  bang : Bool := false

def Expr.Fine (w : Weak) : Expr → Prop
  | .value => True
  | .const c => c.Fine
  | .parens e => e.Fine w
  | .unary op e => e.Fine w ∧ (w.minus = true → op = .SUB → ¬ e.minusLit) ∧ (w.bang = true → op = .NOT → e.compound ∨ e.minusLit)
  | .cast _ e => e.Fine w
  | .binary op a b => a.Fine w ∧ b.Fine w ∧ (w.power = true → op = .POW → ¬ a.minusLit)
  | .ternary c a b => c.Fine w ∧ a.Fine w ∧ b.Fine w

/-- The type of an expression, as far as it is explicit. -/
def Expr.type (ty : Prim) : Expr → Option Prim
  | .value => some ty
  | .const (.bool _) => some .bool
  | .parens e => e.type ty
  | .cast p _ => some p
  | .ternary _ a _ => a.type ty
  | _ => none

/-- The branches of all conditionals have an explicit type, the same one. -/
def Expr.Typed (ty : Prim) : Expr → Prop
  | .value => True
  | .const _ => True
  | .parens e => e.Typed ty
  | .unary _ e => e.Typed ty
  | .cast _ e => e.Typed ty
  | .binary _ a b => a.Typed ty ∧ b.Typed ty
  | .ternary c a b => c.Typed ty ∧ a.Typed ty ∧ b.Typed ty ∧ ∃ p, a.type ty = some p ∧ b.type ty = some p

/-- A text is an expression of the language: its tokens are those of the tree, grouped as the precedences say. -/
def ReadsExpr (s : Str) (e : Expr) : Prop := ∃ ts, lex s = some ts ∧ e.WF ∧ e.toks = ts.map mkTok

end Bubbler.Front
