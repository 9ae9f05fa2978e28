import Verif.Proof.CrcGen
import Verif.Model.Crc32
import Verif.Model.Crc64
import Mathlib.Tactic.NormNum.Prime

namespace Gofer.Checksum
open Gofer.Spec.Bits Gofer.CrcGen

theorem bitSteps32 (n : Nat) (c : BitVec 32) : Crc32.bitSteps n c = (step Crc32.poly)^[n] c := by
  induction n generalizing c with
  | zero => rfl
  | succ n ih => rw [Crc32.bitSteps, ih]; rfl

theorem bitSteps64 (n : Nat) (c : BitVec 64) : Crc64.bitSteps n c = (step Crc64.poly)^[n] c := by
  induction n generalizing c with
  | zero => rfl
  | succ n ih => rw [Crc64.bitSteps, ih]; rfl

theorem fold32 (bs : List UInt8) (c : BitVec 32) : bs.foldl Crc32.updateByte c = run Crc32.poly c (bits bs) := by
  induction bs generalizing c with
  | nil => rfl
  | cons b bs ih =>
    rw [List.foldl_cons, ih, show bits (b :: bs) = byteBits b ++ bits bs from rfl, run_append]
    congr 1
    rw [← table_eq (by decide)]
    simp only [Crc32.updateByte, Crc32.table, bitSteps32]

theorem fold64 (bs : List UInt8) (c : BitVec 64) : bs.foldl Crc64.updateByte c = run Crc64.poly c (bits bs) := by
  induction bs generalizing c with
  | nil => rfl
  | cons b bs ih =>
    rw [List.foldl_cons, ih, show bits (b :: bs) = byteBits b ++ bits bs from rfl, run_append]
    congr 1
    rw [← table_eq (by decide)]
    simp only [Crc64.updateByte, Crc64.table, bitSteps64]

theorem bits_len (a b : List UInt8) (h : a.length = b.length) : (bits a).length = (bits b).length := by
  rw [bits_length, bits_length, h]

theorem not_inj {w : Nat} {x y : BitVec w} (h : ~~~x = ~~~y) : x = y := by
  have := congrArg (fun z => ~~~z) h
  simpa using this

theorem crc32_eq_iff (a b : List UInt8) (h : a.length = b.length) :
    Crc32.crc32 a = Crc32.crc32 b ↔ run Crc32.poly 0#32 (errors a b) = 0#32 := by
  rw [errors, ← run_eq_iff _ (~~~ 0#32) _ _ (bits_len a b h), ← fold32, ← fold32]
  simp only [Crc32.crc32, Crc32.checksum, UInt32.ofBitVec.injEq]
  exact ⟨not_inj, fun h => by rw [h]⟩

theorem crc64_eq_iff (a b : List UInt8) (h : a.length = b.length) :
    Crc64.crc64 a = Crc64.crc64 b ↔ run Crc64.poly 0#64 (errors a b) = 0#64 := by
  rw [errors, ← run_eq_iff _ (~~~ 0#64) _ _ (bits_len a b h), ← fold64, ← fold64]
  simp only [Crc64.crc64, Crc64.checksum, UInt64.ofBitVec.injEq]
  exact ⟨not_inj, fun h => by rw [h]⟩

theorem byteBits_inj {a b : UInt8} (h : byteBits a = byteBits b) : a = b := by
  have h2 := (ofBits_byte (w := 8) (by decide) a).symm.trans ((congrArg (ofBits 8) h).trans (ofBits_byte (by decide) b))
  simp only [BitVec.setWidth_eq] at h2
  exact UInt8.toBitVec_inj.1 h2

theorem bits_inj {a b : List UInt8} (hl : a.length = b.length) (h : bits a = bits b) : a = b := by
  induction a generalizing b with
  | nil => cases b with
    | nil => rfl
    | cons _ _ => simp at hl
  | cons x xs ih => cases b with
    | nil => simp at hl
    | cons y ys =>
      simp only [bits, List.flatMap_cons] at h
      obtain ⟨h1, h2⟩ := List.append_inj h (by rw [byteBits_length, byteBits_length])
      rw [byteBits_inj h1, ih (by simpa using hl) h2]

theorem eq_of_errors {a b : List UInt8} (hl : a.length = b.length) (h : ∀ e ∈ errors a b, e = false) : a = b := by
  apply bits_inj hl
  have := bits_len a b hl
  unfold errors at h
  revert this h
  generalize bits a = x
  generalize bits b = y
  intro h hl
  induction x generalizing y with
  | nil => cases y with
    | nil => rfl
    | cons _ _ => simp at hl
  | cons u us ih => cases y with
    | nil => simp at hl
    | cons v vs =>
      simp only [List.zipWith_cons_cons, List.mem_cons, forall_eq_or_imp] at h
      simp only [List.length_cons, Nat.add_right_cancel_iff] at hl
      rw [ih vs h.2 hl]
      congr 1
      simpa using h.1

theorem step_period32 (n : Nat) : (step Crc32.poly)^[n] 1#32 = 1#32 ↔ 4294967295 ∣ n := by
  apply period (by decide) _ (by decide) 32 4294967295 [3, 5, 17, 257, 65537] (by decide)
  · decide +kernel
  · decide +kernel
  · intro q hq hd
    rw [show 4294967295 = 3 * (5 * (17 * (257 * 65537))) from rfl] at hd
    have h3 : Nat.Prime 3 := by norm_num
    have h5 : Nat.Prime 5 := by norm_num
    have h17 : Nat.Prime 17 := by norm_num
    have h257 : Nat.Prime 257 := by norm_num
    have h65537 : Nat.Prime 65537 := by norm_num
    rcases (Nat.Prime.dvd_mul hq).1 hd with h | hd
    · simp [(Nat.prime_dvd_prime_iff_eq hq h3).1 h]
    rcases (Nat.Prime.dvd_mul hq).1 hd with h | hd
    · simp [(Nat.prime_dvd_prime_iff_eq hq h5).1 h]
    rcases (Nat.Prime.dvd_mul hq).1 hd with h | hd
    · simp [(Nat.prime_dvd_prime_iff_eq hq h17).1 h]
    rcases (Nat.Prime.dvd_mul hq).1 hd with h | h
    · simp [(Nat.prime_dvd_prime_iff_eq hq h257).1 h]
    · simp [(Nat.prime_dvd_prime_iff_eq hq h65537).1 h]

theorem step_period64 (n : Nat) : (step Crc64.poly)^[n] 1#64 = 1#64 ↔ 8589606914 ∣ n := by
  apply period (by decide) _ (by decide) 34 8589606914 [2, 7, 31, 151, 131071] (by decide)
  · decide +kernel
  · decide +kernel
  · intro q hq hd
    rw [show 8589606914 = 2 * (7 * (31 * (151 * 131071))) from rfl] at hd
    have h3 : Nat.Prime 2 := by norm_num
    have h5 : Nat.Prime 7 := by norm_num
    have h17 : Nat.Prime 31 := by norm_num
    have h257 : Nat.Prime 151 := by norm_num
    have h65537 : Nat.Prime 131071 := by norm_num
    rcases (Nat.Prime.dvd_mul hq).1 hd with h | hd
    · simp [(Nat.prime_dvd_prime_iff_eq hq h3).1 h]
    rcases (Nat.Prime.dvd_mul hq).1 hd with h | hd
    · simp [(Nat.prime_dvd_prime_iff_eq hq h5).1 h]
    rcases (Nat.Prime.dvd_mul hq).1 hd with h | hd
    · simp [(Nat.prime_dvd_prime_iff_eq hq h17).1 h]
    rcases (Nat.Prime.dvd_mul hq).1 hd with h | h
    · simp [(Nat.prime_dvd_prime_iff_eq hq h257).1 h]
    · simp [(Nat.prime_dvd_prime_iff_eq hq h65537).1 h]

end Gofer.Checksum
