import Mathlib.Data.Rat.Floor
import Mathlib.Algebra.Order.Floor.Ring

/-!
# Floating-point numbers

The type `double` of the code, with its rounding: IEEE 754 binary64, round to nearest, ties to even, with subnormal numbers.  A `double` is a
rational number that `fl` leaves alone.  Simplifications: no overflow (there is no largest number, and no infinity or NaN) and one zero.
-/

namespace Verif.Fp

/-- The integer closest to `y`; the even one, if there are two. -/
def roundEven (y : ℚ) : ℤ :=
  if y - ⌊y⌋ < 1 / 2 then ⌊y⌋
  else if 1 / 2 < y - ⌊y⌋ then ⌊y⌋ + 1
  else if ⌊y⌋ % 2 = 0 then ⌊y⌋ else ⌊y⌋ + 1

/-- The exponent of `x`: the `e` with `2^e ≤ |x| < 2^(e+1)`, if `x` is not zero. -/
def expo (x : ℚ) : ℤ :=
  let e : ℤ := (x.num.natAbs.log2 : ℤ) - x.den.log2
  if (2 : ℚ) ^ e ≤ |x| then e else e - 1

/-- The distance of neighbouring numbers around `x`. -/
def ulp (x : ℚ) : ℚ := (2 : ℚ) ^ (max (expo x - 52) (-1074))

/-- Rounding to the nearest `double`. -/
def fl (x : ℚ) : ℚ := if x = 0 then 0 else ulp x * roundEven (x / ulp x)

/-- `x` is a value of type `double`. -/
def IsDouble (x : ℚ) : Prop := fl x = x

instance (x : ℚ) : Decidable (IsDouble x) := by unfold IsDouble; infer_instance

/-- `x + y` on doubles. -/
def fadd (x y : ℚ) : ℚ := fl (x + y)
/-- `x - y` on doubles. -/
def fsub (x y : ℚ) : ℚ := fl (x - y)
/-- `x * y` on doubles. -/
def fmul (x y : ℚ) : ℚ := fl (x * y)
/-- `x / y` on doubles, `y` not zero. -/
def fdiv (x y : ℚ) : ℚ := fl (x / y)

/-- The largest relative rounding error of a normal number, `2^-53`. -/
def unit : ℚ := 2 ^ (-53 : ℤ)

/-- The largest absolute rounding error of a subnormal number, `2^-1075`. -/
def tiny : ℚ := 2 ^ (-1075 : ℤ)

end Verif.Fp
