import Verif.Model.AesBlock

namespace Gofer.AesBlock

theorem all8 {P : UInt8 → Prop} (h : ∀ n : Fin 256, P (UInt8.ofNat n.val)) (b : UInt8) : P b := by
  have := h ⟨b.toNat, b.toNat_lt⟩
  simpa using this

theorem sbox_inv (b : UInt8) : invSbox.getD (sbox.getD b.toNat 0).toNat 0 = b :=
  all8 (P := fun b => invSbox.getD (sbox.getD b.toNat 0).toNat 0 = b) (by decide +kernel) b

theorem invSub_sub (s : List UInt8) : invSubBytes (subBytes s) = s := by
  unfold invSubBytes subBytes
  rw [List.map_map]
  conv => rhs; rw [← List.map_id s]
  apply List.map_congr_left
  intro b _
  exact sbox_inv b

theorem sub_len (s : List UInt8) : (subBytes s).length = s.length := by simp [subBytes]
theorem invSub_len (s : List UInt8) : (invSubBytes s).length = s.length := by simp [invSubBytes]
theorem shift_len (s : List UInt8) : (shiftRows s).length = 16 := by simp [shiftRows]
theorem invShift_len (s : List UInt8) : (invShiftRows s).length = 16 := by simp [invShiftRows]
theorem add_len (w : List UInt8) (r : Nat) (s : List UInt8) : (addRoundKey w r s).length = 16 := by simp [addRoundKey]

/-- A list of sixteen bytes. -/
theorem sixteen {s : List UInt8} (h : s.length = 16) :
    ∃ a b c d e f g i j k l m n o p q, s = [a, b, c, d, e, f, g, i, j, k, l, m, n, o, p, q] := by
  match s, h with
  | [a, b, c, d, e, f, g, i, j, k, l, m, n, o, p, q], _ => exact ⟨a, b, c, d, e, f, g, i, j, k, l, m, n, o, p, q, rfl⟩

theorem invShift_shift {s : List UInt8} (h : s.length = 16) : invShiftRows (shiftRows s) = s := by
  obtain ⟨a, b, c, d, e, f, g, i, j, k, l, m, n, o, p, q, rfl⟩ := sixteen h
  rfl

theorem add_add (w : List UInt8) (r : Nat) {s : List UInt8} (h : s.length = 16) : addRoundKey w r (addRoundKey w r s) = s := by
  apply List.ext_getElem
  · rw [add_len, h]
  · intro i h1 h2
    rw [add_len] at h1
    have h3 : i < s.length := by omega
    simp [addRoundKey, h1, h3, UInt8.xor_assoc]

theorem xor_left_comm (a b c : UInt8) : a ^^^ (b ^^^ c) = b ^^^ (a ^^^ c) := by
  rw [← UInt8.xor_assoc, UInt8.xor_comm a b, UInt8.xor_assoc]

theorem xor_self_left (a b : UInt8) : a ^^^ (a ^^^ b) = b := by
  rw [← UInt8.xor_assoc]; simp

theorem xtime_xor (a b : UInt8) : xtime (a ^^^ b) = xtime a ^^^ xtime b := by
  have h : ∀ c : UInt8, xtime c = (c <<< 1) ^^^ (c >>> 7) * 0x1b :=
    all8 (P := fun c => xtime c = (c <<< 1) ^^^ (c >>> 7) * 0x1b) (by decide +kernel)
  have h7 : ∀ c : UInt8, c >>> 7 = 0 ∨ c >>> 7 = 1 := all8 (P := fun c => c >>> 7 = 0 ∨ c >>> 7 = 1) (by decide +kernel)
  rw [h, h, h]
  have e1 : (a ^^^ b) <<< 1 = (a <<< 1) ^^^ (b <<< 1) := by
    apply UInt8.eq_of_toBitVec_eq
    simp [BitVec.shiftLeft_xor_distrib]
  have e2 : (a ^^^ b) >>> 7 = (a >>> 7) ^^^ (b >>> 7) := by
    apply UInt8.eq_of_toBitVec_eq
    simp [BitVec.ushiftRight_xor_distrib]
  rw [e1, e2]
  rcases h7 a with ha | ha <;> rcases h7 b with hb | hb <;> rw [ha, hb] <;> simp [UInt8.xor_assoc, UInt8.xor_comm, xor_left_comm, xor_self_left]

theorem mul9_xor (a b : UInt8) : mul9 (a ^^^ b) = mul9 a ^^^ mul9 b := by
  simp only [mul9, xtime_xor, UInt8.xor_assoc, UInt8.xor_comm, xor_left_comm]
theorem mul11_xor (a b : UInt8) : mul11 (a ^^^ b) = mul11 a ^^^ mul11 b := by
  simp only [mul11, xtime_xor, UInt8.xor_assoc, UInt8.xor_comm, xor_left_comm]
theorem mul13_xor (a b : UInt8) : mul13 (a ^^^ b) = mul13 a ^^^ mul13 b := by
  simp only [mul13, xtime_xor, UInt8.xor_assoc, UInt8.xor_comm, xor_left_comm]
theorem mul14_xor (a b : UInt8) : mul14 (a ^^^ b) = mul14 a ^^^ mul14 b := by
  simp only [mul14, xtime_xor, UInt8.xor_assoc, UInt8.xor_comm, xor_left_comm]

theorem regroup (a b c d e f g h i j k l m n o p : UInt8) :
    (a ^^^ b ^^^ c ^^^ d) ^^^ (e ^^^ f ^^^ g ^^^ h) ^^^ (i ^^^ j ^^^ k ^^^ l) ^^^ (m ^^^ n ^^^ o ^^^ p) =
      (a ^^^ e ^^^ i ^^^ m) ^^^ (b ^^^ f ^^^ j ^^^ n) ^^^ (c ^^^ g ^^^ k ^^^ o) ^^^ (d ^^^ h ^^^ l ^^^ p) := by ac_rfl

theorem coef00 (a : UInt8) : mul14 (xtime a) ^^^ mul11 a ^^^ mul13 a ^^^ mul9 (mul3 a) = a :=
  all8 (P := fun a => mul14 (xtime a) ^^^ mul11 a ^^^ mul13 a ^^^ mul9 (mul3 a) = a) (by decide +kernel) a
theorem coef01 (a : UInt8) : mul14 (mul3 a) ^^^ mul11 (xtime a) ^^^ mul13 a ^^^ mul9 a = 0 :=
  all8 (P := fun a => mul14 (mul3 a) ^^^ mul11 (xtime a) ^^^ mul13 a ^^^ mul9 a = 0) (by decide +kernel) a
theorem coef02 (a : UInt8) : mul14 a ^^^ mul11 (mul3 a) ^^^ mul13 (xtime a) ^^^ mul9 a = 0 :=
  all8 (P := fun a => mul14 a ^^^ mul11 (mul3 a) ^^^ mul13 (xtime a) ^^^ mul9 a = 0) (by decide +kernel) a
theorem coef03 (a : UInt8) : mul14 a ^^^ mul11 a ^^^ mul13 (mul3 a) ^^^ mul9 (xtime a) = 0 :=
  all8 (P := fun a => mul14 a ^^^ mul11 a ^^^ mul13 (mul3 a) ^^^ mul9 (xtime a) = 0) (by decide +kernel) a
theorem coef10 (a : UInt8) : mul9 (xtime a) ^^^ mul14 a ^^^ mul11 a ^^^ mul13 (mul3 a) = 0 :=
  all8 (P := fun a => mul9 (xtime a) ^^^ mul14 a ^^^ mul11 a ^^^ mul13 (mul3 a) = 0) (by decide +kernel) a
theorem coef11 (a : UInt8) : mul9 (mul3 a) ^^^ mul14 (xtime a) ^^^ mul11 a ^^^ mul13 a = a :=
  all8 (P := fun a => mul9 (mul3 a) ^^^ mul14 (xtime a) ^^^ mul11 a ^^^ mul13 a = a) (by decide +kernel) a
theorem coef12 (a : UInt8) : mul9 a ^^^ mul14 (mul3 a) ^^^ mul11 (xtime a) ^^^ mul13 a = 0 :=
  all8 (P := fun a => mul9 a ^^^ mul14 (mul3 a) ^^^ mul11 (xtime a) ^^^ mul13 a = 0) (by decide +kernel) a
theorem coef13 (a : UInt8) : mul9 a ^^^ mul14 a ^^^ mul11 (mul3 a) ^^^ mul13 (xtime a) = 0 :=
  all8 (P := fun a => mul9 a ^^^ mul14 a ^^^ mul11 (mul3 a) ^^^ mul13 (xtime a) = 0) (by decide +kernel) a
theorem coef20 (a : UInt8) : mul13 (xtime a) ^^^ mul9 a ^^^ mul14 a ^^^ mul11 (mul3 a) = 0 :=
  all8 (P := fun a => mul13 (xtime a) ^^^ mul9 a ^^^ mul14 a ^^^ mul11 (mul3 a) = 0) (by decide +kernel) a
theorem coef21 (a : UInt8) : mul13 (mul3 a) ^^^ mul9 (xtime a) ^^^ mul14 a ^^^ mul11 a = 0 :=
  all8 (P := fun a => mul13 (mul3 a) ^^^ mul9 (xtime a) ^^^ mul14 a ^^^ mul11 a = 0) (by decide +kernel) a
theorem coef22 (a : UInt8) : mul13 a ^^^ mul9 (mul3 a) ^^^ mul14 (xtime a) ^^^ mul11 a = a :=
  all8 (P := fun a => mul13 a ^^^ mul9 (mul3 a) ^^^ mul14 (xtime a) ^^^ mul11 a = a) (by decide +kernel) a
theorem coef23 (a : UInt8) : mul13 a ^^^ mul9 a ^^^ mul14 (mul3 a) ^^^ mul11 (xtime a) = 0 :=
  all8 (P := fun a => mul13 a ^^^ mul9 a ^^^ mul14 (mul3 a) ^^^ mul11 (xtime a) = 0) (by decide +kernel) a
theorem coef30 (a : UInt8) : mul11 (xtime a) ^^^ mul13 a ^^^ mul9 a ^^^ mul14 (mul3 a) = 0 :=
  all8 (P := fun a => mul11 (xtime a) ^^^ mul13 a ^^^ mul9 a ^^^ mul14 (mul3 a) = 0) (by decide +kernel) a
theorem coef31 (a : UInt8) : mul11 (mul3 a) ^^^ mul13 (xtime a) ^^^ mul9 a ^^^ mul14 a = 0 :=
  all8 (P := fun a => mul11 (mul3 a) ^^^ mul13 (xtime a) ^^^ mul9 a ^^^ mul14 a = 0) (by decide +kernel) a
theorem coef32 (a : UInt8) : mul11 a ^^^ mul13 (mul3 a) ^^^ mul9 (xtime a) ^^^ mul14 a = 0 :=
  all8 (P := fun a => mul11 a ^^^ mul13 (mul3 a) ^^^ mul9 (xtime a) ^^^ mul14 a = 0) (by decide +kernel) a
theorem coef33 (a : UInt8) : mul11 a ^^^ mul13 a ^^^ mul9 (mul3 a) ^^^ mul14 (xtime a) = a :=
  all8 (P := fun a => mul11 a ^^^ mul13 a ^^^ mul9 (mul3 a) ^^^ mul14 (xtime a) = a) (by decide +kernel) a

/-- `InvMixColumns` undoes `MixColumns`. -/
theorem invMix_mix (s : List UInt8) (h : s.length % 4 = 0) : invMixColumns (mixColumns s) = s := by
  match s, h with
  | [], _ => rfl
  | [_], h | [_, _], h | [_, _, _], h => simp at h
  | a :: b :: c :: d :: r, h =>
    have ih := invMix_mix r (by simp only [List.length_cons] at h; omega)
    rw [mixColumns, invMixColumns, ih]
    simp only [mul9_xor, mul11_xor, mul13_xor, mul14_xor]
    refine List.cons_eq_cons.2 ⟨?_, List.cons_eq_cons.2 ⟨?_, List.cons_eq_cons.2 ⟨?_, List.cons_eq_cons.2 ⟨?_, rfl⟩⟩⟩⟩ <;>
      rw [regroup] <;>
      simp only [coef00, coef01, coef02, coef03, coef10, coef11, coef12, coef13, coef20, coef21, coef22, coef23, coef30, coef31, coef32, coef33, UInt8.xor_zero, UInt8.zero_xor]

theorem mix_len (s : List UInt8) (h : s.length % 4 = 0) : (mixColumns s).length = s.length := by
  match s, h with
  | [], _ => rfl
  | [_], h | [_, _], h | [_, _, _], h => simp at h
  | a :: b :: c :: d :: r, h =>
    have ih := mix_len r (by simp only [List.length_cons] at h; omega)
    simp [mixColumns, ih]

theorem invMix_len (s : List UInt8) (h : s.length % 4 = 0) : (invMixColumns s).length = s.length := by
  match s, h with
  | [], _ => rfl
  | [_], h | [_, _], h | [_, _, _], h => simp at h
  | a :: b :: c :: d :: r, h =>
    have ih := invMix_len r (by simp only [List.length_cons] at h; omega)
    simp [invMixColumns, ih]

/-- The state before a round of the cipher is got back from the state after it. -/
theorem round_back (w : List UInt8) (r : Nat) {s : List UInt8} (h : s.length = 16) :
    invSubBytes (invShiftRows (invMixColumns (addRoundKey w r (round w s r)))) = s := by
  have h1 : (shiftRows (subBytes s)).length = 16 := shift_len _
  have h2 : (mixColumns (shiftRows (subBytes s))).length = 16 := by rw [mix_len _ (by omega), h1]
  unfold round
  rw [add_add w r h2, invMix_mix _ (by omega), invShift_shift (by rw [sub_len, h]), invSub_sub]

/-- The state after `n` rounds of the cipher. -/
def after (w : List UInt8) (s : List UInt8) (n : Nat) : List UInt8 := (List.range n).foldl (fun s r => round w s (r + 1)) s

theorem after_succ (w s : List UInt8) (n : Nat) : after w s (n + 1) = round w (after w s n) (n + 1) := by
  simp [after, List.range_succ, List.foldl_append]

theorem after_len (w : List UInt8) {s : List UInt8} (h : s.length = 16) (n : Nat) : (after w s n).length = 16 := by
  cases n with
  | zero => exact h
  | succ n => rw [after_succ]; exact add_len _ _ _

/-- The rounds of the inverse cipher run through the states of the cipher backwards. -/
theorem rounds_back (w : List UInt8) {s : List UInt8} (h : s.length = 16) (n : Nat) (hn : n ≤ 13) :
    invSubBytes (invShiftRows ((List.range n).foldl (fun s r => invRound w s (13 - r)) (shiftRows (subBytes (after w s 13))))) =
      after w s (13 - n) := by
  have key : ∀ n, n ≤ 13 → (List.range n).foldl (fun s r => invRound w s (13 - r)) (shiftRows (subBytes (after w s 13))) =
      shiftRows (subBytes (after w s (13 - n))) := by
    intro n hn
    induction n with
    | zero => rfl
    | succ n ih =>
      rw [List.range_succ, List.foldl_append, ih (by omega)]
      have e : 13 - n = 13 - (n + 1) + 1 := by omega
      simp only [List.foldl_cons, List.foldl_nil]
      unfold invRound
      rw [invShift_shift (by rw [sub_len, after_len w h]), invSub_sub, e, after_succ]
      have h1 : (shiftRows (subBytes (after w s (13 - (n + 1))))).length = 16 := shift_len _
      have h2 : (mixColumns (shiftRows (subBytes (after w s (13 - (n + 1)))))).length = 16 := by rw [mix_len _ (by omega), h1]
      unfold round
      rw [add_add w _ h2, invMix_mix _ (by omega)]
  rw [key n hn, invShift_shift (by rw [sub_len, after_len w h]), invSub_sub]

theorem encrypt_len (key b : List UInt8) : (encrypt key b).length = 16 := add_len _ _ _
theorem decrypt_len (key b : List UInt8) : (decrypt key b).length = 16 := add_len _ _ _

theorem decrypt_encrypt (key : List UInt8) {b : List UInt8} (h : b.length = 16) : decrypt key (encrypt key b) = b := by
  unfold decrypt encrypt
  simp only []
  rw [add_add _ _ (shift_len _)]
  have := rounds_back (expand key) (add_len (expand key) 0 b) 13 (by omega)
  unfold after at this
  simp only [Nat.sub_self, List.range_zero, List.foldl_nil] at this
  rw [this, add_add _ _ h]

end Gofer.AesBlock
