import Verif.Model.Digest

namespace Gofer.Digest

theorem all8 {P : UInt8 → Prop} (h : ∀ n : Fin 256, P (UInt8.ofNat n.val)) (b : UInt8) : P b := by
  have := h ⟨b.toNat, b.toNat_lt⟩
  simpa using this

theorem put64LE_len (v : UInt64) : (put64LE v).length = 8 := by simp [put64LE]
theorem put64BE_len (v : UInt64) : (put64BE v).length = 8 := by simp [put64BE]

theorem pad_len {put : UInt64 → List UInt8} (hp : ∀ v, (put v).length = 8) (n : Nat) :
    (pad put n).length = 9 + (119 - n % 64) % 64 := by
  simp [pad, hp]
  omega

theorem pad_total {put : UInt64 → List UInt8} (hp : ∀ v, (put v).length = 8) (n : Nat) : (n + (pad put n).length) % 64 = 0 := by
  rw [pad_len hp]
  omega

theorem absorb_append (h : Hash) (k : Nat) : ∀ (n : Nat) (s : h.S) (x y : List UInt8), x.length = 64 * k →
    h.absorb (k + n) s (x ++ y) = h.absorb n (h.absorb k s x) y := by
  induction k with
  | zero =>
    intro n s x y hx
    have : x = [] := List.length_eq_zero_iff.1 (by omega)
    subst this
    simp [Hash.absorb]
  | succ k ih =>
    intro n s x y hx
    have e : k + 1 + n = (k + n) + 1 := by omega
    rw [e]
    simp only [Hash.absorb]
    rw [List.take_append_of_le_length (by omega), List.drop_append_of_le_length (by omega)]
    exact ih n _ _ y (by simp; omega)

/-- The digest of a message that begins with whole blocks. -/
theorem sum_append (h : Hash) (k : Nat) (x y : List UInt8) (hx : x.length = 64 * k) :
    h.sum (x ++ y) = h.out (h.absorb ((y ++ pad h.put64 (x ++ y).length).length / 64) (h.absorb k h.init x) (y ++ pad h.put64 (x ++ y).length)) := by
  unfold Hash.sum
  simp only []
  generalize pad h.put64 (x ++ y).length = p
  have e : (x ++ y ++ p).length / 64 = k + (y ++ p).length / 64 := by
    rw [List.append_assoc, List.length_append, hx]
    omega
  rw [e, List.append_assoc, absorb_append h k _ _ _ _ hx]

/-- Two messages of whole blocks that lead to the same state have the same digest, whatever follows. -/
theorem sum_tail (h : Hash) (k : Nat) {x y : List UInt8} (hx : x.length = 64 * k) (hy : y.length = 64 * k)
    (e : h.absorb k h.init x = h.absorb k h.init y) (t : List UInt8) : h.sum (x ++ t) = h.sum (y ++ t) := by
  rw [sum_append h k x t hx, sum_append h k y t hy, e]
  simp only [List.length_append, hx, hy]

/-- What follows a message and its padding can be taken in by someone who knows the digest only. -/
theorem sum_extend (h : Hash) (hp : ∀ v, (h.put64 v).length = 8) {back : List UInt8 → h.S} (hb : ∀ s, back (h.out s) = s) (m x : List UInt8) :
    h.sum (m ++ pad h.put64 m.length ++ x) =
      h.out (h.absorb ((x ++ pad h.put64 (m.length + (pad h.put64 m.length).length + x.length)).length / 64) (back (h.sum m))
        (x ++ pad h.put64 (m.length + (pad h.put64 m.length).length + x.length))) := by
  have hm : (m ++ pad h.put64 m.length).length = 64 * ((m ++ pad h.put64 m.length).length / 64) := by
    have := pad_total hp m.length
    rw [List.length_append]
    omega
  rw [sum_append h _ _ x hm]
  have e : back (h.sum m) = h.absorb ((m ++ pad h.put64 m.length).length / 64) h.init (m ++ pad h.put64 m.length) := by
    unfold Hash.sum
    simp only [hb]
  rw [e]
  simp only [List.length_append]

theorem mod256 (x : BitVec 32) (i : Nat) : (x % 256#32).getLsbD i = (decide (i < 8) && x.getLsbD i) := by
  have e : x % 256#32 = (x.setWidth 8).setWidth 32 := by
    apply BitVec.eq_of_toNat_eq
    simp
    omega
  rw [e]
  simp only [BitVec.getLsbD_setWidth]
  by_cases h : i < 8
  · simp [h, show i < 32 by omega]
  · simp [h]

theorem mod256' (x : BitVec 32) (i : Nat) (hi : i < 32) : (x % 256#32)[i] = (decide (i < 8) && x.getLsbD i) := by
  rw [← mod256]
  simp [hi]

theorem join_bytes (v : UInt32) :
    v.toUInt8.toUInt32 ||| (v >>> 8).toUInt8.toUInt32 <<< 8 ||| (v >>> 16).toUInt8.toUInt32 <<< 16 |||
      (v >>> 24).toUInt8.toUInt32 <<< 24 = v := by
  apply UInt32.eq_of_toBitVec_eq
  apply BitVec.eq_of_getLsbD_eq
  intro i hi
  simp only [UInt32.toBitVec_or, UInt32.toBitVec_shiftLeft, BitVec.getLsbD_or]
  simp [hi]
  by_cases h1 : i < 8
  · simp [mod256', h1, hi, show i < 16 by omega, show i < 24 by omega]
  · by_cases h2 : i < 16
    · simp [mod256', h1, h2, show i < 24 by omega, show i - 8 < 8 by omega, show 8 + (i - 8) = i by omega, hi]
    · by_cases h3 : i < 24
      · simp [mod256', h1, h2, h3, show ¬ i - 8 < 8 by omega, show i - 16 < 8 by omega, show 16 + (i - 16) = i by omega, hi]
      · simp [mod256', h1, h2, h3, show ¬ i - 8 < 8 by omega, show ¬ i - 16 < 8 by omega, show i - 24 < 8 by omega, show 24 + (i - 24) = i by omega, hi]

theorem join_bytes' (v : UInt32) :
    (v >>> 24).toUInt8.toUInt32 <<< 24 ||| (v >>> 16).toUInt8.toUInt32 <<< 16 ||| (v >>> 8).toUInt8.toUInt32 <<< 8 |||
      v.toUInt8.toUInt32 = v := by
  refine Eq.trans ?_ (join_bytes v)
  generalize (v >>> 24).toUInt8.toUInt32 <<< 24 = a
  generalize (v >>> 16).toUInt8.toUInt32 <<< 16 = b
  generalize (v >>> 8).toUInt8.toUInt32 <<< 8 = c
  generalize v.toUInt8.toUInt32 = d
  ac_rfl

theorem get_put_LE (v : UInt32) (p q : List UInt8) (i : Nat) (hi : p.length = i) : get32LE (p ++ (put32LE v ++ q)) i = v := by
  have e : ∀ j, (p ++ (put32LE v ++ q)).getD (i + j) 0 = (put32LE v ++ q).getD j 0 := by
    intro j
    rw [List.getD_eq_getElem?_getD, List.getD_eq_getElem?_getD, List.getElem?_append_right (by omega)]
    congr 2
    omega
  have e0 := e 0
  simp only [Nat.add_zero] at e0
  unfold get32LE
  rw [e0, e 1, e 2, e 3]
  exact join_bytes v

theorem get_put_BE (v : UInt32) (p q : List UInt8) (i : Nat) (hi : p.length = i) : get32BE (p ++ (put32BE v ++ q)) i = v := by
  have e : ∀ j, (p ++ (put32BE v ++ q)).getD (i + j) 0 = (put32BE v ++ q).getD j 0 := by
    intro j
    rw [List.getD_eq_getElem?_getD, List.getD_eq_getElem?_getD, List.getElem?_append_right (by omega)]
    congr 2
    omega
  have e0 := e 0
  simp only [Nat.add_zero] at e0
  unfold get32BE
  rw [e0, e 1, e 2, e 3]
  exact join_bytes' v

/-- The state of MD5 read from a digest. -/
def md5Back (d : List UInt8) : S4 := ⟨get32LE d 0, get32LE d 4, get32LE d 8, get32LE d 12⟩

theorem md5Back_out (s : S4) : md5Back (md5.out s) = s := by
  obtain ⟨a, b, c, d⟩ := s
  simp only [md5Back, md5, S4.mk.injEq]
  refine ⟨?_, ?_, ?_, ?_⟩
  · simpa using get_put_LE a [] (put32LE b ++ put32LE c ++ put32LE d) 0 rfl
  · simpa using get_put_LE b (put32LE a) (put32LE c ++ put32LE d) 4 rfl
  · simpa using get_put_LE c (put32LE a ++ put32LE b) (put32LE d) 8 rfl
  · simpa using get_put_LE d (put32LE a ++ put32LE b ++ put32LE c) [] 12 rfl

/-- The state of SHA-1 read from a digest. -/
def sha1Back (d : List UInt8) : S5 := ⟨get32BE d 0, get32BE d 4, get32BE d 8, get32BE d 12, get32BE d 16⟩

theorem sha1Back_out (s : S5) : sha1Back (sha1.out s) = s := by
  obtain ⟨a, b, c, d, e⟩ := s
  simp only [sha1Back, sha1, S5.mk.injEq]
  refine ⟨?_, ?_, ?_, ?_, ?_⟩
  · simpa using get_put_BE a [] (put32BE b ++ put32BE c ++ put32BE d ++ put32BE e) 0 rfl
  · simpa using get_put_BE b (put32BE a) (put32BE c ++ put32BE d ++ put32BE e) 4 rfl
  · simpa using get_put_BE c (put32BE a ++ put32BE b) (put32BE d ++ put32BE e) 8 rfl
  · simpa using get_put_BE d (put32BE a ++ put32BE b ++ put32BE c) (put32BE e) 12 rfl
  · simpa using get_put_BE e (put32BE a ++ put32BE b ++ put32BE c ++ put32BE d) [] 16 rfl

theorem md5Sum_len (s : List UInt8) : (md5Sum s).length = 16 := by simp [md5Sum, Hash.sum, md5, put32LE]
theorem sha1Sum_len (s : List UInt8) : (sha1Sum s).length = 20 := by simp [sha1Sum, Hash.sum, sha1, put32BE]
theorem sha256Sum_len (s : List UInt8) : (sha256Sum s).length = 32 := by simp [sha256Sum, Hash.sum, sha256, put32BE]

end Gofer.Digest
