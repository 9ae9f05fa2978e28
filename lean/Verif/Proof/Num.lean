import Verif.Spec.Num
import Verif.Model.Num
import Mathlib.Tactic.Ring
import Mathlib.Tactic.Linarith

namespace Gofer.Num
open Gofer.Spec.Num

theorem beValue_foldl (bs : List UInt8) (n : Nat) :
    bs.foldl (fun a b => a * 256 + b.toNat) n = n * 256 ^ bs.length + beValue bs := by
  induction bs generalizing n with
  | nil => simp [beValue]
  | cons d ds ih =>
    simp only [beValue, List.foldl_cons, List.length_cons] at *
    rw [ih (n * 256 + d.toNat), ih (0 * 256 + d.toNat)]
    ring

theorem beValue_nil : beValue [] = 0 := rfl

theorem beValue_cons (b : UInt8) (bs : List UInt8) :
    beValue (b :: bs) = b.toNat * 256 ^ bs.length + beValue bs := by
  simp only [beValue, List.foldl_cons]
  rw [beValue_foldl]; simp [beValue]

theorem beValue_append (a b : List UInt8) : beValue (a ++ b) = beValue a * 256 ^ b.length + beValue b := by
  simp only [beValue, List.foldl_append]
  rw [beValue_foldl]; simp [beValue]

theorem beValue_lt (bs : List UInt8) : beValue bs < 256 ^ bs.length := by
  induction bs with
  | nil => simp [beValue]
  | cons d ds ih =>
    rw [beValue_cons, List.length_cons, Nat.pow_succ]
    have h2 : d.toNat < 256 := d.toNat_lt
    have h3 : d.toNat * 256 ^ ds.length ≤ 255 * 256 ^ ds.length := Nat.mul_le_mul_right _ (by omega)
    omega

theorem beValue_inj (a b : List UInt8) (hl : a.length = b.length) (hv : beValue a = beValue b) : a = b := by
  induction a generalizing b with
  | nil => cases b <;> simp_all
  | cons x xs ih =>
    cases b with
    | nil => simp at hl
    | cons y ys =>
      simp only [List.length_cons, Nat.add_right_cancel_iff] at hl
      rw [beValue_cons, beValue_cons, hl] at hv
      have h1 := beValue_lt xs
      have h2 := beValue_lt ys
      rw [hl] at h1
      have hxy : x.toNat = y.toNat := by
        rcases Nat.lt_trichotomy x.toNat y.toNat with h | h | h
        · have := Nat.mul_le_mul_right (256 ^ ys.length) h
          rw [Nat.succ_mul] at this; omega
        · exact h
        · have := Nat.mul_le_mul_right (256 ^ ys.length) h
          rw [Nat.succ_mul] at this; omega
      rw [hxy] at hv
      rw [UInt8.toNat_inj.1 hxy, ih ys hl (by omega)]

theorem lex_iff_beValue (a b : List UInt8) (hl : a.length = b.length) :
    List.Lex (· < ·) a b ↔ beValue a < beValue b := by
  induction a generalizing b with
  | nil => cases b <;> simp_all
  | cons x xs ih =>
    cases b with
    | nil => simp at hl
    | cons y ys =>
      simp only [List.length_cons, Nat.add_right_cancel_iff] at hl
      rw [beValue_cons, beValue_cons, hl]
      have h1 := beValue_lt xs
      have h2 := beValue_lt ys
      rw [hl] at h1
      rw [List.cons_lex_cons_iff, UInt8.lt_iff_toNat_lt, ih ys hl]
      rcases Nat.lt_trichotomy x.toNat y.toNat with h | h | h
      · have := Nat.mul_le_mul_right (256 ^ ys.length) h
        rw [Nat.succ_mul] at this
        constructor
        · intro _; omega
        · intro _; exact Or.inl h
      · have hxy := UInt8.toNat_inj.1 h
        subst hxy
        constructor
        · rintro (h | ⟨_, h⟩) <;> omega
        · intro h; exact Or.inr ⟨rfl, by omega⟩
      · have := Nat.mul_le_mul_right (256 ^ ys.length) h
        rw [Nat.succ_mul] at this
        constructor
        · rintro (h | ⟨rfl, h⟩) <;> omega
        · intro _; omega

theorem toByte_sshift {w : Nat} (n : BitVec w) (s : Nat) (h : s + 8 ≤ w) :
    (toByte (n.sshiftRight s)).toNat = n.toNat / 2 ^ s % 256 := by
  have : (n.sshiftRight s).setWidth 8 = (n >>> s).setWidth 8 := by
    apply BitVec.eq_of_getLsbD_eq
    intro i hi
    simp only [BitVec.getLsbD_setWidth, BitVec.getLsbD_sshiftRight, BitVec.getLsbD_ushiftRight, hi]
    have h1 : ¬ w ≤ i := by omega
    have h2 : s + i < w := by omega
    simp [h1, h2]
  simp only [toByte, this]
  simp [Nat.shiftRight_eq_div_pow]

theorem toByte_ushift {w : Nat} (n : BitVec w) (s : Nat) :
    (toByte (n >>> s)).toNat = n.toNat / 2 ^ s % 256 := by
  simp [toByte, Nat.shiftRight_eq_div_pow]

/-- Big-endian byte list of a natural number. -/
def beBytes : Nat → Nat → List UInt8
  | 0, _ => []
  | k + 1, n => beBytes k (n / 256) ++ [UInt8.ofNat (n % 256)]

theorem beBytes_length (k n : Nat) : (beBytes k n).length = k := by
  induction k generalizing n <;> simp_all [beBytes]

theorem beValue_beBytes (k n : Nat) : beValue (beBytes k n) = n % 256 ^ k := by
  induction k generalizing n with
  | zero => simp [beBytes, beValue, Nat.mod_one]
  | succ k ih =>
    simp only [beBytes]
    rw [beValue_append, ih]
    simp only [beValue, List.length_cons, List.length_nil, List.foldl_cons, List.foldl_nil]
    have h1 : (UInt8.ofNat (n % 256)).toNat = n % 256 := by simp
    rw [h1, Nat.pow_succ 256 k, Nat.mul_comm (256 ^ k), Nat.mod_mul]
    ring

theorem range_map_beBytes (k n : Nat) (f : Nat → UInt8)
    (h : ∀ i < k, (f i).toNat = n / 2 ^ (8 * (k - 1 - i)) % 256) :
    (List.range k).map f = beBytes k n := by
  induction k generalizing n with
  | zero => simp [beBytes]
  | succ k ih =>
    rw [List.range_succ, List.map_append, beBytes]
    congr 1
    · apply ih
      intro i hi
      rw [h i (by omega), Nat.div_div_eq_div_mul]
      congr 2
      have : k + 1 - 1 - i = (k - 1 - i) + 1 := by omega
      rw [this, Nat.mul_add, Nat.pow_add]
      ring
    · have := h k (by omega)
      simp only [List.map_cons, List.map_nil, List.cons.injEq, and_true]
      apply UInt8.toNat_inj.1
      rw [this]; simp

theorem int64ToBytes_eq (n : BitVec 64) : int64ToBytes n = beBytes 8 n.toNat :=
  range_map_beBytes 8 _ _ fun i hi => toByte_sshift n _ (by omega)

theorem int32ToBytes_eq (n : BitVec 32) : int32ToBytes n = beBytes 4 n.toNat :=
  range_map_beBytes 4 _ _ fun i hi => toByte_sshift n _ (by omega)

theorem int16ToBytes_eq (n : BitVec 16) : int16ToBytes n = beBytes 2 n.toNat :=
  range_map_beBytes 2 _ _ fun i hi => toByte_sshift n _ (by omega)

theorem putUint64_eq (n : BitVec 64) : putUint64 n = beBytes 8 n.toNat :=
  range_map_beBytes 8 _ _ fun i hi => by
    rw [toByte_ushift]; congr 3; omega

theorem ofByte_shift_toNat (w : Nat) (b : UInt8) (s : Nat) (h : s + 8 ≤ w) :
    (ofByte w b <<< s).toNat = b.toNat * 2 ^ s := by
  have hb : b.toNat < 2 ^ 8 := b.toNat_lt
  have h1 : b.toNat < 2 ^ w := lt_of_lt_of_le hb (Nat.pow_le_pow_right (by omega) (by omega))
  have h2 : b.toNat * 2 ^ s < 2 ^ w := by
    calc b.toNat * 2 ^ s < 2 ^ 8 * 2 ^ s := Nat.mul_lt_mul_of_pos_right hb (by positivity)
      _ = 2 ^ (s + 8) := by rw [← Nat.pow_add, Nat.add_comm]
      _ ≤ 2 ^ w := Nat.pow_le_pow_right (by omega) h
  simp only [ofByte, BitVec.toNat_shiftLeft, BitVec.toNat_setWidth, UInt8.toNat_toBitVec]
  rw [Nat.mod_eq_of_lt h1, Nat.shiftLeft_eq, Nat.mod_eq_of_lt h2]

/-- The descending or-loop builds the big-endian value from the top. -/
theorem orLoop_aux (w k : Nat) (hw : w = 8 * k) (bs : List UInt8) (hl : k ≤ bs.length) (m : Nat) (hm : m ≤ k) :
    ((List.range m).foldl (fun r i => r ||| (ofByte w (bs.getD i 0) <<< (8 * (k - 1 - i)))) (0 : BitVec w)).toNat
      = beValue (bs.take m) * 2 ^ (8 * (k - m)) := by
  induction m with
  | zero => simp [beValue]
  | succ m ih =>
    rw [List.range_succ, List.foldl_append, List.foldl_cons, List.foldl_nil, BitVec.toNat_or, ih (by omega),
      ofByte_shift_toNat _ _ _ (by omega)]
    have hm' : m < bs.length := by omega
    rw [List.take_add_one, List.getElem?_eq_getElem hm', beValue_append]
    simp only [List.getD_eq_getElem?_getD, List.getElem?_eq_getElem hm', Option.getD_some]
    have hb : bs[m].toNat < 2 ^ 8 := bs[m].toNat_lt
    have e1 : 8 * (k - m) = 8 + 8 * (k - 1 - m) := by omega
    have e2 : k - (m + 1) = k - 1 - m := by omega
    rw [e1, e2, ← Nat.shiftLeft_eq, ← Nat.shiftLeft_add_eq_or_of_lt]
    · rw [Nat.shiftLeft_eq, Nat.pow_add]
      simp [beValue]; ring
    · rw [Nat.pow_add]
      exact Nat.mul_lt_mul_of_pos_right hb (by positivity)

theorem orLoop64_eq (bs : List UInt8) (hl : 8 ≤ bs.length) : (orLoop64 bs).toNat = beValue (bs.take 8) := by
  have := orLoop_aux 64 8 rfl bs hl 8 (le_refl _)
  simpa [orLoop64] using this

theorem orLoop32_eq (bs : List UInt8) (hl : 4 ≤ bs.length) : (orLoop32 bs).toNat = beValue (bs.take 4) := by
  have := orLoop_aux 32 4 rfl bs hl 4 (le_refl _)
  simpa [orLoop32] using this

theorem orLoop16_eq (bs : List UInt8) (hl : 2 ≤ bs.length) : (orLoop16 bs).toNat = beValue (bs.take 2) := by
  have := orLoop_aux 16 2 rfl bs hl 2 (le_refl _)
  simpa [orLoop16] using this

/-- The ascending or-loop of `getUint64`. -/
theorem getUint64_aux (b : List UInt8) (hl : 8 ≤ b.length) (m : Nat) (hm : m ≤ 8) :
    ((List.range m).foldl (fun r j => r ||| (ofByte 64 (b.getD (7 - j) 0) <<< (8 * j))) (0 : BitVec 64)).toNat
      = beValue ((b.take 8).drop (8 - m)) := by
  induction m with
  | zero => simp [beValue]
  | succ m ih =>
    rw [List.range_succ, List.foldl_append, List.foldl_cons, List.foldl_nil, BitVec.toNat_or, ih (by omega),
      ofByte_shift_toNat _ _ _ (by omega)]
    have h7 : 7 - m < (b.take 8).length := by simp; omega
    have h7' : 7 - m < b.length := by omega
    have e : 8 - (m + 1) = 7 - m := by omega
    rw [e, List.drop_eq_getElem_cons h7, beValue_cons]
    have e2 : 7 - m + 1 = 8 - m := by omega
    have hlen : ((b.take 8).drop (8 - m)).length = m := by simp; omega
    rw [e2, hlen]
    simp only [List.getD_eq_getElem?_getD, List.getElem?_eq_getElem h7', Option.getD_some, List.getElem_take]
    have hlt := beValue_lt ((b.take 8).drop (8 - m))
    rw [hlen] at hlt
    have e3 : (256 : Nat) ^ m = 2 ^ (8 * m) := by rw [Nat.pow_mul]
    rw [e3] at hlt ⊢
    rw [Nat.or_comm, ← Nat.shiftLeft_eq, ← Nat.shiftLeft_add_eq_or_of_lt hlt]

theorem getUint64_eq (b : List UInt8) (hl : 8 ≤ b.length) : (getUint64 b).toNat = beValue (b.take 8) := by
  have := getUint64_aux b hl 8 (le_refl _)
  simpa [getUint64] using this

theorem padLoop_aux (k : Nat) (bs : List UInt8) (hl : bs.length ≤ k) (m : Nat) (hm : m ≤ bs.length) :
    (List.range m).foldl (fun a i => a.set (i + k - bs.length) (bs.getD i 0)) (List.replicate k 0)
      = List.replicate (k - bs.length) 0 ++ bs.take m ++ List.replicate (bs.length - m) 0 := by
  induction m with
  | zero =>
    simp only [List.range_zero, List.foldl_nil, List.take_zero, List.append_nil, Nat.sub_zero,
      List.replicate_append_replicate]
    congr 1; omega
  | succ m ih =>
    rw [List.range_succ, List.foldl_append, List.foldl_cons, List.foldl_nil, ih (by omega)]
    have hm' : m < bs.length := by omega
    have e : m + k - bs.length = (List.replicate (k - bs.length) (0:UInt8) ++ bs.take m).length := by
      simp; omega
    have e2 : bs.length - m = (bs.length - (m + 1)) + 1 := by omega
    rw [e, e2, List.replicate_succ, List.set_append_right _ _ (le_refl _), Nat.sub_self, List.set_cons_zero,
      List.take_add_one, List.getElem?_eq_getElem hm']
    simp only [List.getD_eq_getElem?_getD, List.getElem?_eq_getElem hm', Option.getD_some,
      Option.toList_some, List.append_assoc, List.cons_append, List.nil_append]

theorem padLoop_eq (k : Nat) (bs : List UInt8) (hl : bs.length ≤ k) :
    padLoop k bs = List.replicate (k - bs.length) 0 ++ bs := by
  have := padLoop_aux k bs hl bs.length (le_refl _)
  simpa [padLoop] using this

theorem beValue_zeros (m : Nat) : beValue (List.replicate m 0) = 0 := by
  induction m with
  | zero => rfl
  | succ m ih => rw [List.replicate_succ, beValue_cons, ih]; simp

theorem beValue_pad (m : Nat) (bs : List UInt8) : beValue (List.replicate m 0 ++ bs) = beValue bs := by
  rw [beValue_append, beValue_zeros]; simp

theorem bytesToInt64_toNat (bs : List UInt8) : (bytesToInt64 bs).toNat = beValue (bs.take 8) := by
  unfold bytesToInt64
  split
  · exact orLoop64_eq bs (by omega)
  · rw [orLoop64_eq _ (by rw [padLoop_eq _ _ (by omega)]; simp; omega), padLoop_eq _ _ (by omega),
      List.take_of_length_le (by simp; omega), List.take_of_length_le (by omega), beValue_pad]

theorem bytesToInt32_toNat (bs : List UInt8) : (bytesToInt32 bs).toNat = beValue (bs.take 4) := by
  unfold bytesToInt32
  split
  · exact orLoop32_eq bs (by omega)
  · rw [orLoop32_eq _ (by rw [padLoop_eq _ _ (by omega)]; simp; omega), padLoop_eq _ _ (by omega),
      List.take_of_length_le (by simp; omega), List.take_of_length_le (by omega), beValue_pad]

theorem bytesToInt16_toNat (bs : List UInt8) : (bytesToInt16 bs).toNat = beValue (bs.take 2) := by
  unfold bytesToInt16
  split
  · exact orLoop16_eq bs (by omega)
  · rw [orLoop16_eq _ (by rw [padLoop_eq _ _ (by omega)]; simp; omega), padLoop_eq _ _ (by omega),
      List.take_of_length_le (by simp; omega), List.take_of_length_le (by omega), beValue_pad]

end Gofer.Num
