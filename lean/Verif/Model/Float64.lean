import Mathlib.Data.Rat.Defs
import Mathlib.Algebra.Order.Field.Rat
import Mathlib.Data.Nat.Sqrt

/-!
# `float64` on rationals

A `float64` is its rational value; every operation rounds to 53 binary digits, to nearest, ties to even (IEEE 754 binary64).
Simplifications: no overflow, no subnormal numbers, no infinities and NaN, no negative zero. (The values met in `image` lie between
2⁻⁶³ and 2¹²⁶ for images with positive sides.)
-/
namespace Gofer.F64

/-- 2ᵉ. -/
def pow2 (e : Int) : Rat := if 0 ≤ e then (((2 ^ e.toNat : Nat) : Int) : Rat) else mkRat 1 (2 ^ (-e).toNat)

/-- The binary exponent of a positive rational: `pow2 (ilog q) ≤ q < pow2 (ilog q + 1)`. -/
def ilog (q : Rat) : Int :=
  let k : Int := (q.num.natAbs.log2 : Int) - (q.den.log2 : Int)
  if pow2 k ≤ q then k else k - 1

/-- To the nearest integer, ties to even. -/
def roundEven (x : Rat) : Int :=
  let f := x.floor
  let d := x - f
  if d < 1 / 2 then f else if 1 / 2 < d then f + 1 else if f % 2 = 0 then f else f + 1

/-- Rounding to 53 binary digits. -/
def rnd (q : Rat) : Rat :=
  if q = 0 then 0 else
  let e := ilog (if 0 ≤ q then q else -q) - 52
  roundEven (q / pow2 e) * pow2 e

/-- `float64(n)`, `a / b`, `a * b`. -/
def ofInt (n : Int) : Rat := rnd n
def div (a b : Rat) : Rat := rnd (a / b)
def mul (a b : Rat) : Rat := rnd (a * b)

/-- `math.Sqrt`. -/
def sqrt (q : Rat) : Rat :=
  if q ≤ 0 then 0 else
  let e := ilog q / 2 - 52
  let x := q / (pow2 e * pow2 e)
  let m := Nat.sqrt x.floor.toNat
  (if (m : Rat) * m + m + 1 / 4 < x then (m : Rat) + 1 else m) * pow2 e

/-- `int(x)`. -/
def toInt (q : Rat) : Int := if 0 ≤ q then q.floor else -(-q).floor

end Gofer.F64
