import Mathlib.Data.Rat.Defs
import Mathlib.Data.Int.Log
import Mathlib.Data.Rat.Floor
import Mathlib.Algebra.Order.Round

/-!
# Specification: rounding to a nearest floating point number
-/

namespace Verif

/-- `x` has at most `t` significant bits: it is an integer of at most `t` bits times a power of two.  (`2^t` itself is
`2^(t-1) * 2`.) -/
def Rep (t : ℕ) (x : ℚ) : Prop := ∃ m k : ℤ, |m| ≤ 2 ^ t ∧ x = m * (2 : ℚ) ^ k

/-- `fl` returns a number with at most `t` significant bits, and no such number is closer to the argument.  Where two numbers are
equally close either may be taken; IEEE 754 takes the even one. -/
def Nearest (t : ℕ) (fl : ℚ → ℚ) : Prop := ∀ x, Rep t (fl x) ∧ ∀ y, Rep t y → |fl x - x| ≤ |y - x|

/-- One such function. -/
noncomputable def nearestBits (t : ℕ) (x : ℚ) : ℚ :=
  round (x / 2 ^ (Int.log 2 |x| + 1 - t)) * 2 ^ (Int.log 2 |x| + 1 - t)

end Verif
