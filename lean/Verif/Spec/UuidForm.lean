import Verif.Spec.Num
/-! # Version 4 UUIDs as bytes -/
namespace Gofer.Spec.Uuid
open Gofer.Spec.Num

/-- Sixteen bytes with version 4 and the RFC 4122 variant: six bits are fixed, the other 122 are free (RFC 4122, section 4.4: random). -/
structure V4 (u : List UInt8) : Prop where
  len : u.length = 16
  version : (u.getD 6 0).toNat / 16 = 4
  variant : (u.getD 8 0).toNat / 64 = 2

/-- The 62 free bits of the second half. -/
def half (u : List UInt8) : Nat := beValue (u.drop 8) % 2 ^ 62

end Gofer.Spec.Uuid
