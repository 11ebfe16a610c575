import Verif.Front.TokSpec
import Verif.Front.Literal

/-
Specification for C62: what literals mean.
-/
namespace Bubbler.Front

/-- Escapes of one letter and the byte each stands for. -/
def letterEscapes : List (Char × Nat) :=
  [('a', 7), ('b', 8), ('t', 9), ('n', 10), ('v', 11), ('f', 12), ('r', 13), ('\\', 92), ('"', 34)]

/-- The text between the quotes of a string literal means these bytes. -/
inductive Means : Str → Str → Prop
  | nil : Means [] []
  | plain {c s v} : c ≠ '"' → c ≠ '\\' → c ≠ '\n' → Means s v → Means (c :: s) (goChar c ++ v)
  | letter {e n s v} : (e, n) ∈ letterEscapes → Means s v → Means ('\\' :: e :: s) (byteChar n :: v)
  | hex {a b s v} : isHex a = true → isHex b = true → Means s v →
      Means ('\\' :: 'x' :: a :: b :: s) (byteChar (16 * hexVal a + hexVal b) :: v)
  | oct {a b c s v} : isOct a = true → isOct b = true → isOct c = true →
      64 * hexVal a + 8 * hexVal b + hexVal c < 256 → Means s v →
      Means ('\\' :: a :: b :: c :: s) (byteChar (64 * hexVal a + 8 * hexVal b + hexVal c) :: v)

/-- Digits in base `b`. -/
def positional (b : Nat) : Str → Nat
  | [] => 0
  | c :: cs => hexVal c * b ^ cs.length + positional b cs

/-- The value of an integer literal. -/
def IntMeans (s : Str) (n : Nat) : Prop :=
  (∃ c cs, s = c :: cs ∧ ('1' ≤ c ∧ c ≤ '9') ∧ AllC isDec cs ∧ n = positional 10 s) ∨
  (∃ cs, s = '0' :: cs ∧ AllC isOct cs ∧ n = positional 8 cs) ∨
  (∃ x cs, s = '0' :: x :: cs ∧ (x = 'x' ∨ x = 'X') ∧ cs ≠ [] ∧ AllC isHex cs ∧ n = positional 16 cs)

/-- The exponent of a float literal: `up` and `down` powers of ten. -/
def ExpMeans (s : Str) (up down : Nat) : Prop :=
  (s = [] ∧ up = 0 ∧ down = 0) ∨
  ∃ x ds, (x = 'e' ∨ x = 'E') ∧ ds ≠ [] ∧ AllC isDec ds ∧
    ((s = x :: ds ∧ up = positional 10 ds ∧ down = 0) ∨ (s = x :: '+' :: ds ∧ up = positional 10 ds ∧ down = 0) ∨
      (s = x :: '-' :: ds ∧ up = 0 ∧ down = positional 10 ds))

/-- The value of a decimal float literal is `m · 10^up / 10^down`. -/
def FloatMeans (s : Str) (m up down : Nat) : Prop :=
  ∃ ip fp ex d, AllC isDec ip ∧ AllC isDec fp ∧ (ip ≠ [] ∨ fp ≠ []) ∧ ExpMeans ex up d ∧
    ((s = ip ++ '.' :: (fp ++ ex)) ∨ (fp = [] ∧ s = ip ++ ex)) ∧ m = positional 10 (ip ++ fp) ∧ down = d + fp.length

end Bubbler.Front
