import Verif.Model.Crc64
import Mathlib.Logic.Function.Basic
import Mathlib.Algebra.Order.Ring.Nat

namespace Gofer.Crc64

theorem bitStep_xor (x y : BitVec 64) : bitStep (x ^^^ y) = bitStep x ^^^ bitStep y := by
  unfold bitStep
  rw [BitVec.getLsbD_xor, BitVec.ushiftRight_xor_distrib]
  cases x.getLsbD 0 <;> cases y.getLsbD 0 <;> simp
  · rw [BitVec.xor_assoc]
  · rw [BitVec.xor_assoc, BitVec.xor_assoc, BitVec.xor_comm poly]
  · rw [show x >>> 1 ^^^ poly ^^^ (y >>> 1 ^^^ poly) = x >>> 1 ^^^ y >>> 1 ^^^ (poly ^^^ poly) by
      rw [BitVec.xor_assoc, BitVec.xor_assoc]
      congr 1
      rw [← BitVec.xor_assoc, BitVec.xor_comm poly, BitVec.xor_assoc]]
    simp

theorem bitSteps_xor (n : Nat) (x y : BitVec 64) : bitSteps n (x ^^^ y) = bitSteps n x ^^^ bitSteps n y := by
  induction n generalizing x y with
  | zero => rfl
  | succ n ih => simp only [bitSteps, bitStep_xor, ih]

theorem bitSteps_add (m n : Nat) (x : BitVec 64) : bitSteps (m + n) x = bitSteps n (bitSteps m x) := by
  induction m generalizing x with
  | zero => simp [bitSteps]
  | succ m ih => rw [Nat.succ_add]; simp only [bitSteps, ih]

theorem bitStep_msb (x : BitVec 64) : (bitStep x).getLsbD 63 = x.getLsbD 0 := by
  unfold bitStep
  cases h : x.getLsbD 0
  · simp
  · have : poly.getLsbD 63 = true := by decide
    simp [BitVec.getLsbD_xor, this]

theorem bitStep_inj {x y : BitVec 64} (h : bitStep x = bitStep y) : x = y := by
  have h0 : x.getLsbD 0 = y.getLsbD 0 := by rw [← bitStep_msb, ← bitStep_msb, h]
  have h1 : x >>> 1 = y >>> 1 := by
    unfold bitStep at h
    rw [h0] at h
    cases hy : y.getLsbD 0
    · rw [hy] at h; simpa using h
    · rw [hy] at h
      simp only [if_true] at h
      exact (BitVec.xor_left_inj _).1 h
  apply BitVec.eq_of_getLsbD_eq
  intro i hi
  cases i with
  | zero => exact h0
  | succ i =>
    have := congrArg (fun z => BitVec.getLsbD z i) h1
    simpa [BitVec.getLsbD_ushiftRight, Nat.add_comm] using this

theorem bitSteps_inj (n : Nat) {x y : BitVec 64} (h : bitSteps n x = bitSteps n y) : x = y := by
  induction n generalizing x y with
  | zero => exact h
  | succ n ih => exact bitStep_inj (ih h)

theorem bitSteps_shl (n : Nat) (w : BitVec 64) (hw : w.toNat * 2 ^ n < 2 ^ 64) : bitSteps n (w <<< n) = w := by
  induction n with
  | zero => simp [bitSteps]
  | succ n ih =>
    have hn : w.toNat * 2 ^ n < 2 ^ 64 := by
      have : w.toNat * 2 ^ n ≤ w.toNat * 2 ^ (n + 1) := Nat.mul_le_mul_left _ (Nat.pow_le_pow_right (by decide) (by omega))
      omega
    have h1 : bitStep (w <<< (n + 1)) = w <<< n := by
      unfold bitStep
      have hz : (w <<< (n + 1)).getLsbD 0 = false := by simp
      rw [hz]
      simp only [Bool.false_eq_true, if_false]
      apply BitVec.eq_of_toNat_eq
      rw [BitVec.toNat_ushiftRight, BitVec.toNat_shiftLeft, BitVec.toNat_shiftLeft, Nat.shiftLeft_eq, Nat.shiftLeft_eq,
        Nat.mod_eq_of_lt hw, Nat.mod_eq_of_lt hn, Nat.shiftRight_eq_div_pow, Nat.pow_succ, ← Nat.mul_assoc]
      simp
    rw [bitSteps, h1, ih hn]

/-- A byte as a word. -/
def ext (b : UInt8) : BitVec 64 := b.toBitVec.setWidth 64

theorem ext_xor (a b : UInt8) : ext (a ^^^ b) = ext a ^^^ ext b := by
  unfold ext
  rw [UInt8.toBitVec_xor, BitVec.setWidth_xor]

theorem low_high (c : BitVec 64) : ext ⟨c.setWidth 8⟩ ^^^ ((c >>> 8) <<< 8) = c := by
  apply BitVec.eq_of_getLsbD_eq
  intro i hi
  simp only [ext, BitVec.getLsbD_xor, BitVec.getLsbD_setWidth, BitVec.getLsbD_shiftLeft, BitVec.getLsbD_ushiftRight]
  by_cases h8 : i < 8
  · simp [h8, hi]
  · simp only [hi, h8, decide_true, decide_false, Bool.true_and, Bool.false_and, Bool.not_false]
    rw [show 8 + (i - 8) = i by omega]
    simp

/-- Table-driven update = xor the byte in, then 8 bit steps. -/
theorem updateByte_eq (c : BitVec 64) (v : UInt8) : updateByte c v = bitSteps 8 (c ^^^ ext v) := by
  have h : bitSteps 8 ((c >>> 8) <<< 8) = c >>> 8 := by
    apply bitSteps_shl
    rw [BitVec.toNat_ushiftRight, Nat.shiftRight_eq_div_pow]
    have := c.isLt
    omega
  calc updateByte c v = bitSteps 8 (ext (⟨c.setWidth 8⟩ ^^^ v)) ^^^ bitSteps 8 ((c >>> 8) <<< 8) := by rw [h]; rfl
    _ = bitSteps 8 (c ^^^ ext v) := by
      rw [← bitSteps_xor, ext_xor]
      congr 1
      conv_rhs => rw [← low_high c]
      rw [BitVec.xor_assoc, BitVec.xor_assoc, BitVec.xor_comm (ext v)]

/-- Little-endian word of at most 8 bytes. -/
def word : List UInt8 → Nat
  | [] => 0
  | b :: bs => b.toNat + 256 * word bs

theorem word_lt (bs : List UInt8) : word bs < 2 ^ (8 * bs.length) := by
  induction bs with
  | nil => simp [word]
  | cons b bs ih =>
    have : b.toNat < 256 := b.toNat_lt
    simp only [word, List.length_cons]
    rw [show 8 * (bs.length + 1) = 8 * bs.length + 8 by omega, Nat.pow_add]
    omega

theorem word_inj {as bs : List UInt8} (hl : as.length = bs.length) (h : word as = word bs) : as = bs := by
  induction as generalizing bs with
  | nil => cases bs with
    | nil => rfl
    | cons _ _ => simp at hl
  | cons a as ih => cases bs with
    | nil => simp at hl
    | cons b bs =>
      have ha : a.toNat < 256 := a.toNat_lt
      have hb : b.toNat < 256 := b.toNat_lt
      simp only [word] at h
      have h1 : a.toNat = b.toNat := by omega
      have h2 : word as = word bs := by omega
      rw [ih (by simpa using hl) h2, UInt8.toNat_inj.1 h1]

theorem word_cons (b : UInt8) (bs : List UInt8) (hl : bs.length < 8) :
    BitVec.ofNat 64 (word (b :: bs)) = ext b ^^^ (BitVec.ofNat 64 (word bs) <<< 8) := by
  have hw := word_lt bs
  have h2 : (2 : Nat) ^ (8 * bs.length) ≤ 2 ^ 56 := Nat.pow_le_pow_right (by decide) (by omega)
  have hw' : word bs < 2 ^ 56 := by omega
  have hb : b.toNat < 256 := b.toNat_lt
  have hor : ext b ^^^ (BitVec.ofNat 64 (word bs) <<< 8) = (BitVec.ofNat 64 (word bs) <<< 8) + ext b := by
    apply BitVec.eq_of_toNat_eq
    rw [BitVec.toNat_xor, BitVec.toNat_add, BitVec.toNat_shiftLeft, BitVec.toNat_ofNat]
    have e1 : (ext b).toNat = b.toNat := by
      simp only [ext, BitVec.toNat_setWidth, UInt8.toNat_toBitVec]
      omega
    rw [e1, Nat.shiftLeft_eq, Nat.mod_eq_of_lt (by omega : word bs < 2 ^ 64), Nat.mod_eq_of_lt (by omega : word bs * 2 ^ 8 < 2 ^ 64),
      Nat.mod_eq_of_lt (by omega)]
    rw [Nat.xor_comm, Nat.mul_comm, Nat.two_pow_add_eq_or_of_lt hb]
    apply Nat.eq_of_testBit_eq
    intro i
    rw [Nat.testBit_xor, Nat.testBit_or]
    have : (2 ^ 8 * word bs).testBit i = true → b.toNat.testBit i = false := by
      intro h
      rw [Nat.testBit_two_pow_mul] at h
      simp only [Bool.and_eq_true, decide_eq_true_eq] at h
      exact Nat.testBit_lt_two_pow (lt_of_lt_of_le hb (le_trans (by decide) (Nat.pow_le_pow_right (n := 2) (by decide) h.1)))
    cases h1 : (2 ^ 8 * word bs).testBit i <;> cases h2 : b.toNat.testBit i <;> simp_all
  rw [hor]
  apply BitVec.eq_of_toNat_eq
  have e1 : (ext b).toNat = b.toNat := by
    simp only [ext, BitVec.toNat_setWidth, UInt8.toNat_toBitVec]
    omega
  rw [BitVec.toNat_add, BitVec.toNat_shiftLeft, BitVec.toNat_ofNat, BitVec.toNat_ofNat, e1, Nat.shiftLeft_eq, word]
  omega

/-- Processing at most 8 bytes = xor their word into the state, then 8 bit steps per byte. -/
theorem foldl_eq (bs : List UInt8) (hl : bs.length ≤ 8) (c : BitVec 64) :
    bs.foldl updateByte c = bitSteps (8 * bs.length) (c ^^^ BitVec.ofNat 64 (word bs)) := by
  induction bs generalizing c with
  | nil => simp [word, bitSteps]
  | cons b bs ih =>
    simp only [List.length_cons] at hl
    have hw := word_lt bs
    have h2 : (2 : Nat) ^ (8 * bs.length) ≤ 2 ^ 56 := Nat.pow_le_pow_right (by decide) (by omega)
    rw [List.foldl_cons, ih (by omega), updateByte_eq, List.length_cons,
      show 8 * (bs.length + 1) = 8 + 8 * bs.length by omega, bitSteps_add, word_cons b bs (by omega)]
    congr 1
    have hs : bitSteps 8 (BitVec.ofNat 64 (word bs) <<< 8) = BitVec.ofNat 64 (word bs) := by
      apply bitSteps_shl
      rw [BitVec.toNat_ofNat]
      omega
    rw [← BitVec.xor_assoc, bitSteps_xor 8 (c ^^^ ext b) (BitVec.ofNat 64 (word bs) <<< 8), hs]

theorem foldl_inj_bytes {as bs : List UInt8} (hl : as.length = bs.length) (h8 : as.length ≤ 8) (c : BitVec 64)
    (h : as.foldl updateByte c = bs.foldl updateByte c) : as = bs := by
  rw [foldl_eq as h8, foldl_eq bs (hl ▸ h8), hl] at h
  have h1 := bitSteps_inj _ h
  have h2 := (BitVec.xor_right_inj _).1 h1
  have h3 := congrArg BitVec.toNat h2
  have ha := word_lt as
  have hb := word_lt bs
  have hp : (2 : Nat) ^ (8 * as.length) ≤ 2 ^ 64 := Nat.pow_le_pow_right (by decide) (by omega)
  rw [hl] at ha hp
  rw [BitVec.toNat_ofNat, BitVec.toNat_ofNat, Nat.mod_eq_of_lt (by omega), Nat.mod_eq_of_lt (by omega)] at h3
  exact word_inj hl h3

theorem foldl_inj_state (bs : List UInt8) {c d : BitVec 64} (h : bs.foldl updateByte c = bs.foldl updateByte d) : c = d := by
  induction bs generalizing c d with
  | nil => exact h
  | cons b bs ih =>
    have := ih h
    rw [updateByte_eq, updateByte_eq] at this
    exact (BitVec.xor_left_inj _).1 (bitSteps_inj 8 this)

/-- Two messages that differ only inside a window of at most 8 bytes have different checksums. -/
theorem crc64_window (pre post as bs : List UInt8) (hl : as.length = bs.length) (h8 : as.length ≤ 8)
    (h : crc64 (pre ++ as ++ post) = crc64 (pre ++ bs ++ post)) : as = bs := by
  have h1 : checksum (pre ++ as ++ post) = checksum (pre ++ bs ++ post) := congrArg UInt64.toBitVec h
  unfold checksum at h1
  have h2 := congrArg (~~~ ·) h1
  simp only [BitVec.not_not, List.foldl_append] at h2
  exact foldl_inj_bytes hl h8 _ (foldl_inj_state post h2)

end Gofer.Crc64
