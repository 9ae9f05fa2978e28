import Verif.Proof.Checksum
import Verif.Proof.Fnv

/-!
# C126-C128: checksums and hashes of `util/encode.go`
-/
namespace Gofer.Props.Checksum
open Gofer.Spec.Bits Gofer.CrcGen Gofer.Checksum Gofer.Crc32 Gofer.Crc64 Gofer.Fnv

/-- **C126.** CRC32 detects every change confined to 32 consecutive bits, at any position of a message
of any length. -/
theorem C126_crc32_burst (a b : List UInt8) (hl : a.length = b.length) (hne : a ≠ b) (i k : Nat) (x : List Bool)
    (hx : x.length ≤ 32) (he : errors a b = List.replicate i false ++ x ++ List.replicate k false) :
    crc32 a ≠ crc32 b := by
  intro h
  rw [crc32_eq_iff a b hl, he] at h
  have := burst (by decide) _ (by decide) i k x hx h
  apply hne
  apply eq_of_errors hl
  rw [he, this]
  intro e h
  simp only [List.mem_append, List.mem_replicate] at h
  rcases h with (h | h) | h <;> exact h.2

/-- **C126.** Two flipped bits are hidden from CRC32 exactly when their distance is a multiple of
2^32 - 1; so every two-bit error in a message of up to 2^32 - 1 bits is detected, and the bound is sharp. -/
theorem C126_crc32_two_bits (a b : List UInt8) (hl : a.length = b.length) (i m k : Nat)
    (he : errors a b = List.replicate i false ++ [true] ++ List.replicate m false ++ [true] ++ List.replicate k false) :
    crc32 a = crc32 b ↔ (2 ^ 32 - 1) ∣ m + 1 := by
  rw [crc32_eq_iff a b hl, he, twobit (by decide) _ (by decide), step_period32]
  norm_num

/-- CRC32 does not detect every odd number of flipped bits: 15 of them, the polynomial itself. -/
theorem C126_crc32_odd_missed :
    crc32 [0, 0, 0, 0, 0] = crc32 [0x41, 0x06, 0x71, 0xdb, 0x01] ∧
    (errors [0, 0, 0, 0, 0] [0x41, 0x06, 0x71, 0xdb, 0x01]).count true = 15 := by
  decide +kernel

/-- **C127.** CRC64 detects every change confined to 64 consecutive bits. -/
theorem C127_crc64_burst (a b : List UInt8) (hl : a.length = b.length) (hne : a ≠ b) (i k : Nat) (x : List Bool)
    (hx : x.length ≤ 64) (he : errors a b = List.replicate i false ++ x ++ List.replicate k false) :
    crc64 a ≠ crc64 b := by
  intro h
  rw [crc64_eq_iff a b hl, he] at h
  have := burst (by decide) _ (by decide) i k x hx h
  apply hne
  apply eq_of_errors hl
  rw [he, this]
  intro e h
  simp only [List.mem_append, List.mem_replicate] at h
  rcases h with (h | h) | h <;> exact h.2

/-- **C127.** Two flipped bits are hidden from CRC64 exactly when their distance is a multiple of
8589606914 = 2 (2^15 - 1) (2^17 - 1) bits, about one gigabyte. -/
theorem C127_crc64_two_bits (a b : List UInt8) (hl : a.length = b.length) (i m k : Nat)
    (he : errors a b = List.replicate i false ++ [true] ++ List.replicate m false ++ [true] ++ List.replicate k false) :
    crc64 a = crc64 b ↔ 2 * (2 ^ 15 - 1) * (2 ^ 17 - 1) ∣ m + 1 := by
  rw [crc64_eq_iff a b hl, he, twobit (by decide) _ (by decide), step_period64]
  norm_num

/-- **C127.** CRC64 detects every odd number of flipped bits. -/
theorem C127_crc64_odd (a b : List UInt8) (hl : a.length = b.length) (ho : (errors a b).count true % 2 = 1) :
    crc64 a ≠ crc64 b := by
  intro h
  rw [crc64_eq_iff a b hl] at h
  have := par_run (by decide) Crc64.poly (by decide +kernel) (errors a b) 0#64
  rw [h, par_zero] at this
  simp [ho] at this

/-- **C128.** FNVHash32 and FNVHash64 tell apart any two messages that differ only in one byte or in two
neighbouring bytes, at any place of a message of any length. -/
theorem C128_fnv_two_bytes (p s : List UInt8) (x y : List UInt8) (hl : x.length = y.length) (h2 : x.length ≤ 2)
    (hne : x ≠ y) :
    fnvHash32 (p ++ x ++ s) ≠ fnvHash32 (p ++ y ++ s) ∧ fnvHash64 (p ++ x ++ s) ≠ fnvHash64 (p ++ y ++ s) := by
  constructor
  · intro h
    simp only [fnvHash32, List.foldl_append] at h
    have h1 := fold32_state s h
    match x, y, hl, h2, hne, h1 with
    | [], [], _, _, hne, _ => exact hne rfl
    | [a], [b], _, _, hne, h1 =>
      have h3 := mul_inj32 h1
      have h4 := congrArg UInt32.toNat ((UInt32.xor_right_inj _).1 h3)
      simp only [UInt8.toNat_toUInt32] at h4
      exact hne (by rw [UInt8.toNat_inj.1 h4])
    | [a, b], [c, d], _, _, hne, h1 =>
      obtain ⟨rfl, rfl⟩ := two32 _ a b c d h1
      exact hne rfl
  · intro h
    simp only [fnvHash64, List.foldl_append] at h
    have h1 := fold64_state s h
    match x, y, hl, h2, hne, h1 with
    | [], [], _, _, hne, _ => exact hne rfl
    | [a], [b], _, _, hne, h1 =>
      have h3 := mul_inj64 h1
      have h4 := congrArg UInt64.toNat ((UInt64.xor_right_inj _).1 h3)
      simp only [UInt8.toNat_toUInt64] at h4
      exact hne (by rw [UInt8.toNat_inj.1 h4])
    | [a, b], [c, d], _, _, hne, h1 =>
      obtain ⟨rfl, rfl⟩ := two64 _ a b c d h1
      exact hne rfl

/-- Other changes need not be detected: "costarring" and "liquid". -/
theorem C128_fnv32_collision :
    fnvHash32 [99, 111, 115, 116, 97, 114, 114, 105, 110, 103] = fnvHash32 [108, 105, 113, 117, 105, 100] := by
  decide +kernel

/-! ## The hypotheses can be met -/

/-- A burst of 10 bits over a byte boundary. -/
example : crc32 [1, 0xf0, 0x2f, 5] ≠ crc32 [1, 0x00, 0x00, 5] :=
  C126_crc32_burst _ _ rfl (by decide) 12 10 [true, true, true, true, true, true, true, true, false, true]
    (by decide) (by decide +kernel)

/-- Two flipped bits ten apart. -/
example : crc32 [0x80, 0, 7] ≠ crc32 [0, 2, 7] ∧ crc64 [0x80, 0, 7] ≠ crc64 [0, 2, 7] :=
  ⟨fun h => absurd ((C126_crc32_two_bits [0x80, 0, 7] [0, 2, 7] rfl 7 1 14 (by decide +kernel)).1 h) (by decide +kernel),
    fun h => absurd ((C127_crc64_two_bits [0x80, 0, 7] [0, 2, 7] rfl 7 1 14 (by decide +kernel)).1 h) (by decide +kernel)⟩

/-- Three flipped bits. -/
example : crc64 [0x13, 0] ≠ crc64 [0, 0] := C127_crc64_odd _ _ rfl (by decide +kernel)

example : crc64 [9, 1, 2, 3, 4, 5, 6, 7, 8, 9] ≠ crc64 [9, 8, 7, 6, 5, 4, 3, 2, 1, 9] :=
  C127_crc64_burst _ _ rfl (by decide) 8 8
    ((errors [9, 1, 2, 3, 4, 5, 6, 7, 8, 9] [9, 8, 7, 6, 5, 4, 3, 2, 1, 9]).drop 8 |>.take 64)
    (by decide +kernel) (by decide +kernel)

example : fnvHash32 [1, 2, 3, 4, 5] ≠ fnvHash32 [1, 2, 9, 9, 5] :=
  (C128_fnv_two_bytes [1, 2] [5] [3, 4] [9, 9] rfl (by decide) (by decide)).1

end Gofer.Props.Checksum
