/-!
# Specification: cipher block chaining and PKCS#7 padding, by block number
-/
namespace Gofer.Spec.Cbc

/-- The `i`-th block of 16 bytes. -/
def block (d : List UInt8) (i : Nat) : List UInt8 := (d.drop (16 * i)).take 16

/-- Exclusive or of two byte strings. -/
def xorBytes (a b : List UInt8) : List UInt8 := (a.zip b).map fun p => p.1 ^^^ p.2

/-- What block `i` is chained to: the iv for the first, the previous ciphertext block for the others. -/
def chain (iv cipher : List UInt8) : Nat → List UInt8
  | 0 => iv
  | i + 1 => block cipher i

/-- `cipher` is the encryption of `plain` in CBC mode: whole blocks, and each ciphertext block is the
encryption of the plaintext block combined with what it is chained to. -/
def IsCbc (enc : List UInt8 → List UInt8) (iv plain cipher : List UInt8) : Prop :=
  cipher.length = plain.length ∧ plain.length % 16 = 0 ∧
  ∀ i, i < plain.length / 16 → block cipher i = enc (xorBytes (block plain i) (chain iv cipher i))

/-- PKCS#7: `k` bytes of value `k`, with `1 ≤ k ≤ 16`, filling up the last block. -/
def IsPkcs7 (plain padded : List UInt8) : Prop :=
  ∃ k, 1 ≤ k ∧ k ≤ 16 ∧ padded = plain ++ List.replicate k (UInt8.ofNat k) ∧ padded.length % 16 = 0

end Gofer.Spec.Cbc
