import Mathlib.Data.Nat.Prime.Basic

/-!
# Specification of RSA key pairs and of PKCS#1 v1.5 encryption blocks
-/
namespace Gofer.Spec.Rsa

/-- `(n, e)` and `(n, d)` are an RSA key pair: `n` is the product of two different odd primes, and the
exponents undo each other modulo the orders of both. -/
structure KeyPair (n e d : Nat) : Prop where
  primes : ∃ p q : Nat, p.Prime ∧ q.Prime ∧ p ≠ q ∧ p ≠ 2 ∧ q ≠ 2 ∧ n = p * q ∧
    e * d % (p - 1) = 1 % (p - 1) ∧ e * d % (q - 1) = 1 % (q - 1)
  e_low : 2 ≤ e
  e_high : e < 2 ^ 31
  d_pos : 0 < d

/-- `em` is an encryption block for `msg` with padding `ps` (RFC 8017, 7.2.1): `00 02 PS 00 M`, the
padding at least eight bytes, none of them zero. -/
def Block (ps msg em : List UInt8) : Prop :=
  8 ≤ ps.length ∧ (∀ b ∈ ps, b ≠ 0) ∧ em = 0 :: 2 :: (ps ++ 0 :: msg)

/-- `n` has exactly `k` bytes. -/
def ByteLen (n k : Nat) : Prop := 0 < k ∧ 256 ^ (k - 1) ≤ n ∧ n < 256 ^ k

/-- `rnd` delivers non-zero padding of the length asked for. -/
def GoodPadding (rnd : Nat → Option (List UInt8)) : Prop :=
  ∀ m, ∃ ps, rnd m = some ps ∧ ps.length = m ∧ ∀ b ∈ ps, b ≠ 0

end Gofer.Spec.Rsa
