import Verif.Proof.Num

/-! # `util/num.go`: properties C04 - C07 -/
namespace Gofer.Props.Num
open Gofer.Num Gofer.Spec.Num

/-- C04/C06. The encodings are the big-endian two's complement bytes: `N/8` of them, denoting the
unsigned value. -/
theorem C04_int64_denotes (n : BitVec 64) :
    (int64ToBytes n).length = 8 ∧ beValue (int64ToBytes n) = n.toNat := by
  rw [int64ToBytes_eq]
  exact ⟨beBytes_length _ _, by rw [beValue_beBytes]; exact Nat.mod_eq_of_lt n.isLt⟩

theorem C04_int32_denotes (n : BitVec 32) :
    (int32ToBytes n).length = 4 ∧ beValue (int32ToBytes n) = n.toNat := by
  rw [int32ToBytes_eq]
  exact ⟨beBytes_length _ _, by rw [beValue_beBytes]; exact Nat.mod_eq_of_lt n.isLt⟩

theorem C04_int16_denotes (n : BitVec 16) :
    (int16ToBytes n).length = 2 ∧ beValue (int16ToBytes n) = n.toNat := by
  rw [int16ToBytes_eq]
  exact ⟨beBytes_length _ _, by rw [beValue_beBytes]; exact Nat.mod_eq_of_lt n.isLt⟩

/-- C04. Decoding an encoding returns the integer, for every integer of the width. -/
theorem C04_int64_roundtrip (n : BitVec 64) : bytesToInt64 (int64ToBytes n) = n := by
  obtain ⟨hl, hv⟩ := C04_int64_denotes n
  apply BitVec.eq_of_toNat_eq
  rw [bytesToInt64_toNat, List.take_of_length_le (by omega), hv]

theorem C04_int32_roundtrip (n : BitVec 32) : bytesToInt32 (int32ToBytes n) = n := by
  obtain ⟨hl, hv⟩ := C04_int32_denotes n
  apply BitVec.eq_of_toNat_eq
  rw [bytesToInt32_toNat, List.take_of_length_le (by omega), hv]

theorem C04_int16_roundtrip (n : BitVec 16) : bytesToInt16 (int16ToBytes n) = n := by
  obtain ⟨hl, hv⟩ := C04_int16_denotes n
  apply BitVec.eq_of_toNat_eq
  rw [bytesToInt16_toNat, List.take_of_length_le (by omega), hv]

/-- C04. Encoding what was decoded from exactly `N/8` bytes returns those bytes. -/
theorem C04_bytes64_roundtrip (bs : List UInt8) (h : bs.length = 8) : int64ToBytes (bytesToInt64 bs) = bs := by
  obtain ⟨hl, hv⟩ := C04_int64_denotes (bytesToInt64 bs)
  exact beValue_inj _ _ (by omega) (by rw [hv, bytesToInt64_toNat, List.take_of_length_le (by omega)])

theorem C04_bytes32_roundtrip (bs : List UInt8) (h : bs.length = 4) : int32ToBytes (bytesToInt32 bs) = bs := by
  obtain ⟨hl, hv⟩ := C04_int32_denotes (bytesToInt32 bs)
  exact beValue_inj _ _ (by omega) (by rw [hv, bytesToInt32_toNat, List.take_of_length_le (by omega)])

theorem C04_bytes16_roundtrip (bs : List UInt8) (h : bs.length = 2) : int16ToBytes (bytesToInt16 bs) = bs := by
  obtain ⟨hl, hv⟩ := C04_int16_denotes (bytesToInt16 bs)
  exact beValue_inj _ _ (by omega) (by rw [hv, bytesToInt16_toNat, List.take_of_length_le (by omega)])

example : int64ToBytes (-2) = [255,255,255,255,255,255,255,254] := by decide +kernel
example : (bytesToInt64 [255,255,255,255,255,255,255,254]).toInt = -2 := by decide +kernel

/-- C05. A slice shorter than the integer is zero-extended: the (signed) result is its big-endian
value. -/
theorem C05_int64_short (bs : List UInt8) (h : bs.length < 8) :
    (bytesToInt64 bs).toInt = (beValue bs : Int) := by
  have h1 := beValue_lt bs
  have h2 : 256 ^ bs.length ≤ 256 ^ 7 := Nat.pow_le_pow_right (by omega) (by omega)
  have h3 := bytesToInt64_toNat bs
  rw [List.take_of_length_le (by omega)] at h3
  rw [BitVec.toInt_eq_toNat_of_lt (by rw [h3]; omega), h3]

theorem C05_int32_short (bs : List UInt8) (h : bs.length < 4) :
    (bytesToInt32 bs).toInt = (beValue bs : Int) := by
  have h1 := beValue_lt bs
  have h2 : 256 ^ bs.length ≤ 256 ^ 3 := Nat.pow_le_pow_right (by omega) (by omega)
  have h3 := bytesToInt32_toNat bs
  rw [List.take_of_length_le (by omega)] at h3
  rw [BitVec.toInt_eq_toNat_of_lt (by rw [h3]; omega), h3]

theorem C05_int16_short (bs : List UInt8) (h : bs.length < 2) :
    (bytesToInt16 bs).toInt = (beValue bs : Int) := by
  have h1 := beValue_lt bs
  have h2 : 256 ^ bs.length ≤ 256 ^ 1 := Nat.pow_le_pow_right (by omega) (by omega)
  have h3 := bytesToInt16_toNat bs
  rw [List.take_of_length_le (by omega)] at h3
  rw [BitVec.toInt_eq_toNat_of_lt (by rw [h3]; omega), h3]

example : (bytesToInt64 [255, 1]).toInt = 65281 := by decide +kernel

/-- C05. A longer slice is decoded from its first `N/8` bytes only. -/
theorem C05_int64_long (bs rest : List UInt8) (h : bs.length = 8) :
    bytesToInt64 (bs ++ rest) = bytesToInt64 bs ∧ (bytesToInt64 (bs ++ rest)).toNat = beValue bs := by
  have h1 : (bytesToInt64 (bs ++ rest)).toNat = beValue bs := by
    rw [bytesToInt64_toNat, List.take_append_of_le_length (by omega), List.take_of_length_le (by omega)]
  refine ⟨BitVec.eq_of_toNat_eq ?_, h1⟩
  rw [h1, bytesToInt64_toNat, List.take_of_length_le (by omega)]

theorem C05_int32_long (bs rest : List UInt8) (h : bs.length = 4) :
    bytesToInt32 (bs ++ rest) = bytesToInt32 bs ∧ (bytesToInt32 (bs ++ rest)).toNat = beValue bs := by
  have h1 : (bytesToInt32 (bs ++ rest)).toNat = beValue bs := by
    rw [bytesToInt32_toNat, List.take_append_of_le_length (by omega), List.take_of_length_le (by omega)]
  refine ⟨BitVec.eq_of_toNat_eq ?_, h1⟩
  rw [h1, bytesToInt32_toNat, List.take_of_length_le (by omega)]

theorem C05_int16_long (bs rest : List UInt8) (h : bs.length = 2) :
    bytesToInt16 (bs ++ rest) = bytesToInt16 bs ∧ (bytesToInt16 (bs ++ rest)).toNat = beValue bs := by
  have h1 : (bytesToInt16 (bs ++ rest)).toNat = beValue bs := by
    rw [bytesToInt16_toNat, List.take_append_of_le_length (by omega), List.take_of_length_le (by omega)]
  refine ⟨BitVec.eq_of_toNat_eq ?_, h1⟩
  rw [h1, bytesToInt16_toNat, List.take_of_length_le (by omega)]

/-- C06. Byte order of the encodings is the unsigned order of the integers. -/
theorem C06_int64_unsigned_order (a b : BitVec 64) :
    List.Lex (· < ·) (int64ToBytes a) (int64ToBytes b) ↔ a.toNat < b.toNat := by
  obtain ⟨ha, va⟩ := C04_int64_denotes a
  obtain ⟨hb, vb⟩ := C04_int64_denotes b
  rw [lex_iff_beValue _ _ (by omega), va, vb]

/-- C06. For integers of equal sign it is the signed order. -/
theorem C06_int64_signed_order (a b : BitVec 64) (h : a.toInt < 0 ↔ b.toInt < 0) :
    List.Lex (· < ·) (int64ToBytes a) (int64ToBytes b) ↔ a.toInt < b.toInt := by
  rw [C06_int64_unsigned_order]
  have ha := a.isLt
  have hb := b.isLt
  rw [BitVec.toInt_eq_toNat_cond, BitVec.toInt_eq_toNat_cond] at *
  split at h <;> split at h <;> omega

/-- C06. Between a negative and a non-negative integer the byte order is reversed. -/
theorem C06_int64_mixed_sign (a b : BitVec 64) (ha : a.toInt < 0) (hb : 0 ≤ b.toInt) :
    List.Lex (· < ·) (int64ToBytes b) (int64ToBytes a) := by
  rw [C06_int64_unsigned_order]
  have h1 := a.isLt
  have h2 := b.isLt
  rw [BitVec.toInt_eq_toNat_cond] at *
  split at ha <;> split at hb <;> omega

example : (-5 : BitVec 64).toInt < 0 ∧ (-3 : BitVec 64).toInt < 0 := by decide

/-- C07. `BytesToIntArray` inverts `IntArrayToBytes`. -/
theorem C07_intArray_roundtrip (xs : List (BitVec 64)) : bytesToIntArray (intArrayToBytes xs) = xs := by
  have hlen : ∀ xs : List (BitVec 64), (intArrayToBytes xs).length = 8 * xs.length := by
    intro xs
    induction xs with
    | nil => rfl
    | cons x xs ih =>
      simp only [intArrayToBytes, List.flatMap_cons, List.length_append, List.length_cons] at *
      rw [ih, putUint64_eq, beBytes_length]; omega
  have hdrop : ∀ (xs : List (BitVec 64)) (i : Nat), (intArrayToBytes xs).drop (8 * i) = intArrayToBytes (xs.drop i) := by
    intro xs
    induction xs with
    | nil => intro i; simp [intArrayToBytes]
    | cons x xs ih =>
      intro i
      cases i with
      | zero => simp
      | succ i =>
        have hx : (putUint64 x).length = 8 := by rw [putUint64_eq, beBytes_length]
        have := ih i
        simp only [intArrayToBytes, List.flatMap_cons, List.drop_succ_cons] at *
        rw [← this, show 8 * (i + 1) = (putUint64 x).length + 8 * i by omega, List.drop_length_add_append]
  apply List.ext_getElem
  · simp [bytesToIntArray, hlen]
  · intro i h1 h2
    simp only [bytesToIntArray, List.getElem_map, List.getElem_range, hdrop]
    rw [List.drop_eq_getElem_cons h2]
    have hx : (putUint64 xs[i]).length = 8 := by rw [putUint64_eq, beBytes_length]
    apply BitVec.eq_of_toNat_eq
    simp only [intArrayToBytes, List.flatMap_cons]
    rw [getUint64_eq _ (by simp [hx]), List.take_append_of_le_length (by omega),
      List.take_of_length_le (by omega), putUint64_eq, beValue_beBytes]
    exact Nat.mod_eq_of_lt xs[i].isLt

/-- C07. `BytesToIntArray` returns `len/8` values and value `i` is that of bytes `8i .. 8i+8`; the
trailing `len%8` bytes have no influence. -/
theorem C07_bytesToIntArray_values (bs : List UInt8) :
    (bytesToIntArray bs).length = bs.length / 8 ∧
    ∀ i (h : i < (bytesToIntArray bs).length),
      (bytesToIntArray bs)[i].toNat = beValue ((bs.drop (8 * i)).take 8) := by
  have hl : (bytesToIntArray bs).length = bs.length / 8 := by simp [bytesToIntArray]
  refine ⟨hl, fun i h => ?_⟩
  simp only [bytesToIntArray, List.getElem_map, List.getElem_range]
  exact getUint64_eq _ (by rw [List.length_drop]; omega)

theorem C07_bytesToIntArray_trailing (bs tail : List UInt8) (h : bs.length % 8 = 0) (ht : tail.length < 8) :
    bytesToIntArray (bs ++ tail) = bytesToIntArray bs := by
  obtain ⟨l1, v1⟩ := C07_bytesToIntArray_values (bs ++ tail)
  obtain ⟨l2, v2⟩ := C07_bytesToIntArray_values bs
  rw [List.length_append] at l1
  apply List.ext_getElem
  · omega
  · intro i h1 h2
    apply BitVec.eq_of_toNat_eq
    rw [v1, v2, List.drop_append_of_le_length (by omega), List.take_append_of_le_length (by rw [List.length_drop]; omega)]

/-- C07. The array encoding agrees with `Int64ToBytes` element by element. -/
theorem C07_intArray_elements (xs : List (BitVec 64)) : intArrayToBytes xs = xs.flatMap int64ToBytes := by
  unfold intArrayToBytes
  congr 1; funext x
  rw [putUint64_eq, int64ToBytes_eq]

example : bytesToIntArray ([0,0,0,0,0,0,1,2] ++ [9,9]) = [258] := by decide +kernel

end Gofer.Props.Num
