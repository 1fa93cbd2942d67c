import Verif.Spec.DotRead
import Mathlib.Data.Rat.Defs
import Mathlib.Algebra.Order.Field.Rat

/-!
# Reading positions

`pos="x,y!"` in a dot text pins a vertex to the point `(x, y)`.
-/

namespace Verif.DotRead

/-- A decimal number without a sign: digits, possibly a point and more digits. -/
def readUnsigned (w : List Char) : Option ℚ :=
  let a := w.takeWhile (· ≠ '.')
  let b := (w.dropWhile (· ≠ '.')).tail
  if a ≠ [] ∧ a.all Char.isDigit ∧ b.all Char.isDigit then
    some ((Nat.ofDigitChars 10 (a ++ b) 0 : ℚ) / 10 ^ b.length)
  else none

/-- A decimal number. -/
def readDecimal : List Char → Option ℚ
  | '-' :: w => (readUnsigned w).map (fun q => -q)
  | w => readUnsigned w

/-- The value of the attribute `pos`. -/
def readPos (s : String) : Option (ℚ × ℚ) :=
  let a := s.toList.takeWhile (· ≠ ',')
  let b := (s.toList.dropWhile (· ≠ ',')).tail
  if b.getLast? = some '!' then do
    let x ← readDecimal a
    let y ← readDecimal b.dropLast
    return (x, y)
  else none

/-- The text pins the vertex `i` to `(x, y)`, up to rounding to two digits. -/
def Pins (st : List Stmt) (i : Nat) (x y : ℚ) : Prop :=
  ∃ p X Y, attrOf st "pos" (toString i) = some p ∧ readPos p = some (X, Y) ∧ |X - x| ≤ 1 / 200 ∧ |Y - y| ≤ 1 / 200

end Verif.DotRead
