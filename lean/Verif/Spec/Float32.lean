/-!
# Floating point numbers by their bits (IEEE 754)

A float32 counts units of 2^-149, a float64 units of 2^-1074; a unit of a float32 is 2^925 units of a float64.
-/
namespace Gofer.Spec.Float32

/-- What the bits stand for. -/
inductive Value where
  | nan
  | inf (neg : Bool)
  | num (neg : Bool) (units : Nat)
deriving DecidableEq

/-- The value of the 32 bits `b`: sign, 8 bits of exponent, 23 bits of fraction. -/
def value32 (b : Nat) : Value :=
  if b / 2 ^ 23 % 256 = 255 then if b % 2 ^ 23 = 0 then .inf (b / 2 ^ 31 == 1) else .nan
  else .num (b / 2 ^ 31 == 1) (if b / 2 ^ 23 % 256 = 0 then b % 2 ^ 23 else (2 ^ 23 + b % 2 ^ 23) * 2 ^ (b / 2 ^ 23 % 256 - 1))

/-- The value of the 64 bits `b`: sign, 11 bits of exponent, 52 bits of fraction. -/
def value64 (b : Nat) : Value :=
  if b / 2 ^ 52 % 2048 = 2047 then if b % 2 ^ 52 = 0 then .inf (b / 2 ^ 63 == 1) else .nan
  else .num (b / 2 ^ 63 == 1) (if b / 2 ^ 52 % 2048 = 0 then b % 2 ^ 52 else (2 ^ 52 + b % 2 ^ 52) * 2 ^ (b / 2 ^ 52 % 2048 - 1))

/-- Other units. -/
def Value.scale (n : Nat) : Value → Value
  | .num s u => .num s (u * n)
  | v => v

/-- Go's `==`: NaN equals nothing, the two zeros are equal. -/
def Value.eq : Value → Value → Prop
  | .num s u, .num s' u' => u = u' ∧ (s = s' ∨ u = 0)
  | .inf s, .inf s' => s = s'
  | _, _ => False

end Gofer.Spec.Float32
