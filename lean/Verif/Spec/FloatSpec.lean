import Mathlib.Algebra.Order.Field.Power
import Mathlib.Algebra.Order.Ring.Rat
import Mathlib.Data.Rat.Floor
import Mathlib.Data.Int.Log

/-!
# Binary floating point with `p` significant bits

The finite floats are among the rationals, or the reals where square roots are taken.  The exponent range is unbounded, so overflow and underflow are left out; everything else about rounding is kept.
-/
namespace Verif
namespace FloatSpec
variable {α : Type _} [Field α] [LinearOrder α]

/-- `x` is representable with `p` significant bits. -/
def Rep (p : ℕ) (x : α) : Prop := ∃ m e : ℤ, |m| ≤ 2 ^ p ∧ x = m * 2 ^ e

/-- What the theorems need of a rounding: it is monotone and keeps representable numbers. -/
structure Rounding (p : ℕ) (fl : α → α) : Prop where
  mono : Monotone fl
  exact : ∀ x, Rep p x → fl x = x

/-- Rounding to a nearest representable number, whatever is done with ties. -/
def Nearest (p : ℕ) (fl : α → α) : Prop := ∀ x, Rep p (fl x) ∧ ∀ r, Rep p r → |fl x - x| ≤ |r - x|

variable [FloorRing α]

/-- Integer nearest to `y`, ties to even. -/
def evenRound (y : α) : ℤ :=
  if Int.fract y < 1 / 2 then ⌊y⌋ else if 1 / 2 < Int.fract y then ⌊y⌋ + 1 else if Even ⌊y⌋ then ⌊y⌋ else ⌊y⌋ + 1

/-- The IEEE 754 default, round to nearest with ties to the even significand; `p = 53` is the double format. -/
def ieee (p : ℕ) (x : α) : α :=
  if x = 0 then 0 else
  let e := Int.log 2 |x| - (p - 1)
  evenRound (x / 2 ^ e) * 2 ^ e

end FloatSpec
end Verif
