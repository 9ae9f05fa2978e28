import Verif.Proof.Crc8

/-! # CRC8: properties C08, C09 -/
namespace Gofer.Props.Crc8
open Gofer.Crc8 Gofer.Spec.Crc8 Polynomial

/-- C08. The table driven CRC8 is the remainder of `M(x) * x^8` divided by `x^8+x^2+x+1`. -/
theorem C08_crc8_is_remainder (m : List UInt8) :
    poly (bitsOf (crc8 m)) = (poly (msgBits m) * X ^ 8) %ₘ G := crc_eq_mod m

/-- C08. `poly ∘ bitsOf` determines the byte, so C08_crc8_is_remainder fixes `crc8 m` uniquely. -/
theorem C08_byte_poly_injective (a b : UInt8) (h : poly (bitsOf a) = poly (bitsOf b)) : a = b := pB_inj h

/-- C08. Chainable: the CRC of a concatenation depends on the first part only through its CRC; it is
the CRC of the second part with the first part's CRC xored into its first byte. -/
theorem C08_crc8_chain (a : List UInt8) (v : UInt8) (b : List UInt8) :
    crc8 (a ++ v :: b) = crc8 ((crc8 a ^^^ v) :: b) := by
  simp [crc8]

/-- C08. Appending the CRC to the message makes the CRC zero, and only that byte does. -/
theorem C08_crc8_append (m : List UInt8) (c : UInt8) : crc8 (m ++ [c]) = 0 ↔ c = crc8 m := by
  have h : ∀ x : UInt8, crc8Tab.getD x.toNat 0 = 0 ↔ x = 0 := forall_byte (by decide +kernel)
  have : crc8 (m ++ [c]) = crc8Tab.getD (crc8 m ^^^ c).toNat 0 := by simp [crc8]
  rw [this, h, UInt8.xor_eq_zero_iff, eq_comm]

/-- The standard check value: CRC-8 of "123456789" is 0xF4. -/
example : crc8 [0x31,0x32,0x33,0x34,0x35,0x36,0x37,0x38,0x39] = 0xF4 := by decide +kernel

/-- C09. Linearity over xor of equal-length messages. -/
theorem C09_crc8_linear (a b : List UInt8) (h : a.length = b.length) :
    crc8 (List.zipWith (· ^^^ ·) a b) = crc8 a ^^^ crc8 b := crc_linear a b h

/-- C09. An error pattern `e` goes undetected exactly when the generator divides it. -/
theorem C09_crc8_undetected_iff (m e : List UInt8) (h : m.length = e.length) :
    crc8 (List.zipWith (· ^^^ ·) m e) = crc8 m ↔ G ∣ poly (msgBits e) := by
  rw [crc_linear m e h, ← crc_zero_iff]
  constructor
  · intro h2
    have : crc8 m ^^^ (crc8 m ^^^ crc8 e) = crc8 m ^^^ crc8 m := by rw [h2]
    simpa [← UInt8.xor_assoc] using this
  · intro h2; simp [h2]

/-- C09. Every non-zero error confined to 8 consecutive bits is detected. -/
theorem C09_crc8_burst (m e : List UInt8) (h : m.length = e.length) (i j : Nat) (pat : List Bool)
    (he : msgBits e = List.replicate i false ++ pat ++ List.replicate j false)
    (hp : pat.length ≤ 8) (hn : true ∈ pat) :
    crc8 (List.zipWith (· ^^^ ·) m e) ≠ crc8 m := by
  rw [Ne, C09_crc8_undetected_iff m e h, he, List.append_assoc, poly_append, poly_replicate_false, poly_append,
    poly_replicate_false, zero_mul, zero_add, add_zero]
  intro hd
  have h1 := (G_coprime_X.pow_right (n := (List.replicate j false).length)).dvd_of_dvd_mul_right hd
  have h2 : poly pat ≠ 0 := by
    rw [Ne, poly_eq_zero_iff]
    intro h3; simpa using h3 true hn
  refine G_monic.not_dvd_of_degree_lt h2 ?_ h1
  rw [G_degree]
  exact lt_of_lt_of_le (poly_degree_lt pat) (by exact_mod_cast hp)

/-- Non-vacuity: an error pattern crossing a byte boundary. -/
example : msgBits [0x01, 0x80] = List.replicate 7 false ++ [true, true] ++ List.replicate 7 false := by
  decide +kernel

/-- C09. Every error flipping an odd number of bits (in particular one bit) is detected. -/
theorem C09_crc8_odd (m e : List UInt8) (h : m.length = e.length) (ho : (msgBits e).count true % 2 = 1) :
    crc8 (List.zipWith (· ^^^ ·) m e) ≠ crc8 m := by
  rw [Ne, C09_crc8_undetected_iff m e h]
  rintro ⟨q, hq⟩
  have := congrArg (eval 1) hq
  rw [eval_mul, G_eval, zero_mul, eval_poly] at this
  have h2 := (ZMod.natCast_eq_zero_iff _ 2).1 this
  omega

example : (msgBits [0x01, 0x81]).count true % 2 = 1 := by decide +kernel

/-- C09. Every error flipping exactly two bits whose positions differ by less than 127 is detected. -/
theorem C09_crc8_two_bits (m e : List UInt8) (h : m.length = e.length) (i d j : Nat)
    (he : msgBits e = List.replicate i false ++ [true] ++ List.replicate d false ++ [true] ++ List.replicate j false)
    (hd : d + 1 < 127) :
    crc8 (List.zipWith (· ^^^ ·) m e) ≠ crc8 m := by
  rw [Ne, C09_crc8_undetected_iff m e h, he]
  simp only [List.append_assoc, poly_append, poly_replicate_false, zero_mul, zero_add, List.singleton_append,
    poly_cons, pb, if_true, one_mul, add_zero, List.length_append, List.length_replicate, List.length_cons]
  intro h1
  have h2 : (X ^ d * X ^ (j + 1) + X ^ j : (ZMod 2)[X]) = (X ^ (d + 1) + 1) * X ^ j := by ring
  rw [h2] at h1
  exact pow_ne_one (d + 1) (by omega) hd ((IsCoprime.pow_right (n := j) G_coprime_X).dvd_of_dvd_mul_right h1)

/-- Non-vacuity: two flips 9 positions apart. -/
example : msgBits [0x01, 0x00, 0x40] = List.replicate 7 false ++ [true] ++ List.replicate 9 false ++ [true] ++
    List.replicate 6 false := by decide +kernel

/-- C09. The bound 127 is sharp: two flips exactly 127 positions apart are not detected. -/
theorem C09_crc8_two_bits_sharp :
    crc8 ([0x80] ++ List.replicate 14 0 ++ [0x01]) = crc8 (List.replicate 16 0) := by decide +kernel

end Gofer.Props.Crc8
