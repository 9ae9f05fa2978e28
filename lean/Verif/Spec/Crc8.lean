import Mathlib.Algebra.Polynomial.Div
import Mathlib.Data.ZMod.Basic

/-!
# Specification of a CRC as a polynomial remainder over GF(2)
-/
namespace Gofer.Spec.Crc8
open Polynomial

/-- The bits of a byte, most significant first. -/
def bitsOf (b : UInt8) : List Bool := (List.range 8).map fun i => b.toNat.testBit (7 - i)

/-- The bits of a message in transmission order. -/
def msgBits (m : List UInt8) : List Bool := m.flatMap bitsOf

/-- The polynomial over GF(2) whose coefficients, highest degree first, are the given bits. -/
noncomputable def poly (bits : List Bool) : (ZMod 2)[X] :=
  bits.foldl (fun a b => a * X + (if b then 1 else 0)) 0

/-- The generator `x^8 + x^2 + x + 1`. -/
noncomputable def G : (ZMod 2)[X] := X ^ 8 + X ^ 2 + X + 1

end Gofer.Spec.Crc8
