import Verif.Proof.Blake2b

/-! # Blake2b: property C218 -/
namespace Gofer.Props.Blake2b
open Gofer

/-- C218. `Blake2b` returns the BLAKE2b digest of 32 bytes of RFC 7693 for every slice (the length of a slice is below 2^63). -/
theorem C218_rfc (input : List UInt8) (h : input.length < 2 ^ 63) : Blake2b.blake2b input = Spec.Blake2b.hash input :=
  Blake2b.blake2b_eq input (Nat.lt_trans h (by decide))

/-- C218. The digest has 32 bytes. -/
theorem C218_length (input : List UInt8) : (Blake2b.blake2b input).length = 32 := by
  simp [Blake2b.blake2b, Blake2b.finalize, Blake2b.putLE]

/-- C218. What the standard compresses for one message is never the beginning of what it compresses for another: the state
after the last block of a message is not passed on the way to the digest of a longer one, as it is with MD5 and SHA-1 (C205). -/
theorem C218_no_stage (a b : List UInt8) (h : Spec.Blake2b.calls a <+: Spec.Blake2b.calls b) : a = b := Blake2b.calls_prefix a b h

/-- RFC 7693's function of "abc", with 32 bytes. -/
example : Blake2b.blake2b [97, 98, 99] =
    [0xbd, 0xdd, 0x81, 0x3c, 0x63, 0x42, 0x39, 0x72, 0x31, 0x71, 0xef, 0x3f, 0xee, 0x98, 0x57, 0x9b,
     0x94, 0x96, 0x4e, 0x3b, 0xb1, 0xcb, 0x3e, 0x42, 0x72, 0x62, 0xc8, 0xc0, 0x68, 0xd5, 0x23, 0x19] := by decide +kernel

/-- The same for the function of the standard. -/
example : Spec.Blake2b.hash [97, 98, 99] =
    [0xbd, 0xdd, 0x81, 0x3c, 0x63, 0x42, 0x39, 0x72, 0x31, 0x71, 0xef, 0x3f, 0xee, 0x98, 0x57, 0x9b,
     0x94, 0x96, 0x4e, 0x3b, 0xb1, 0xcb, 0x3e, 0x42, 0x72, 0x62, 0xc8, 0xc0, 0x68, 0xd5, 0x23, 0x19] := by
  rw [← C218_rfc _ (by decide)]
  decide +kernel

/-- The empty message. -/
example : Blake2b.blake2b [] =
    [0x0e, 0x57, 0x51, 0xc0, 0x26, 0xe5, 0x43, 0xb2, 0xe8, 0xab, 0x2e, 0xb0, 0x60, 0x99, 0xda, 0xa1,
     0xd1, 0xe5, 0xdf, 0x47, 0x77, 0x8f, 0x77, 0x87, 0xfa, 0xab, 0x45, 0xcd, 0xf1, 0x2f, 0xe3, 0xa8] := by decide +kernel

/-- Messages of exactly one, of two and of more than two blocks: how many calls there are. -/
example : ((Spec.Blake2b.calls (List.replicate 128 7)).map fun c => (c.t, c.last)) = [(128, true)] ∧
    ((Spec.Blake2b.calls (List.replicate 256 7)).map fun c => (c.t, c.last)) = [(128, false), (256, true)] ∧
    ((Spec.Blake2b.calls (List.replicate 257 7)).map fun c => (c.t, c.last)) = [(128, false), (256, false), (257, true)] := by
  decide +kernel

end Gofer.Props.Blake2b
