import Verif.Proof.Aes
import Verif.Spec.Cbc

/-! # CBC mode block by block -/
namespace Gofer.Aes
open Gofer.GoSlice Gofer.Spec.Cbc

theorem xorBytes_eq (a b : List UInt8) : xorBytes a b = xor a b := by
  simp [xorBytes, xor, List.zip, List.map_zipWith]

theorem block_drop (d : List UInt8) (i : Nat) : block (d.drop 16) i = block d (i + 1) := by
  simp only [block, List.drop_drop]
  congr 2; omega

theorem block_zero (d : List UInt8) : block d 0 = d.take 16 := by simp [block]

theorem block_append {b d : List UInt8} (hb : b.length = 16) (i : Nat) : block (b ++ d) (i + 1) = block d i := by
  rw [← block_drop, List.drop_append_of_le_length (by omega), List.drop_eq_nil_of_le (by omega), List.nil_append]

theorem block_append_zero {b d : List UInt8} (hb : b.length = 16) : block (b ++ d) 0 = b := by
  rw [block_zero, List.take_append_of_le_length (by omega), List.take_of_length_le (by omega)]

theorem block_len {d : List UInt8} {n i : Nat} (hd : d.length = 16 * n) (hi : i < n) : (block d i).length = 16 := by
  simp [block]; omega

/-- Two strings of `n` blocks are equal if their blocks are. -/
theorem eq_of_blocks {a b : List UInt8} {n : Nat} (ha : a.length = 16 * n) (hb : b.length = 16 * n)
    (h : ∀ i, i < n → block a i = block b i) : a = b := by
  induction n generalizing a b with
  | zero => rw [List.eq_nil_of_length_eq_zero (l := a) (by omega), List.eq_nil_of_length_eq_zero (l := b) (by omega)]
  | succ n ih =>
    rw [← List.take_append_drop 16 a, ← List.take_append_drop 16 b, ← block_zero, ← block_zero, h 0 (by omega)]
    congr 1
    refine ih (by simp; omega) (by simp; omega) ?_
    intro i hi
    rw [block_drop, block_drop, h (i + 1) (by omega)]

theorem cbcEnc_block {enc : List UInt8 → List UInt8} (he : ∀ b, b.length = 16 → (enc b).length = 16) (n : Nat) :
    ∀ (iv d : List UInt8), iv.length = 16 → d.length = 16 * n → ∀ i, i < n →
      block (cbcEnc enc n iv d) i = enc (xor (block d i) (chain iv (cbcEnc enc n iv d) i)) := by
  induction n with
  | zero => intro _ _ _ _ i hi; omega
  | succ n ih =>
    intro iv d hiv hd i hi
    have h1 : (d.take 16).length = 16 := by simp; omega
    have h3 : (xor (d.take 16) iv).length = 16 := by rw [xor_len (by omega), h1]
    have h2 := he _ h3
    simp only [cbcEnc]
    cases i with
    | zero => rw [block_append_zero h2, block_zero]; rfl
    | succ i =>
      rw [block_append h2, ih _ _ h2 (by simp; omega) i (by omega), block_drop]
      congr 2
      cases i with
      | zero => simp only [chain]; rw [block_append_zero h2]
      | succ i => simp only [chain]; rw [block_append h2]

theorem cbcDec_block {dec : List UInt8 → List UInt8} (hdl : ∀ b, b.length = 16 → (dec b).length = 16) (n : Nat) :
    ∀ (iv d : List UInt8), iv.length = 16 → d.length = 16 * n → ∀ i, i < n →
      block (cbcDec dec n iv d) i = xor (dec (block d i)) (chain iv d i) := by
  induction n with
  | zero => intro _ _ _ _ i hi; omega
  | succ n ih =>
    intro iv d hiv hd i hi
    have h1 : (d.take 16).length = 16 := by simp; omega
    have h2 : (xor (dec (d.take 16)) iv).length = 16 := by rw [xor_len (by rw [hdl _ h1, hiv]), hdl _ h1]
    simp only [cbcDec]
    cases i with
    | zero => rw [block_append_zero h2, block_zero]; rfl
    | succ i =>
      rw [block_append h2, ih _ _ h1 (by simp; omega) i (by omega), block_drop]
      congr 1
      cases i with
      | zero => simp only [chain]; rw [block_zero]
      | succ i => simp only [chain]; rw [block_drop]

theorem chain_len {iv d : List UInt8} {n i : Nat} (hiv : iv.length = 16) (hd : d.length = 16 * n) (hi : i ≤ n) :
    (chain iv d i).length = 16 := by
  cases i with
  | zero => exact hiv
  | succ i => exact block_len hd (by omega)

/-- A CBC encryption by the specification is what the code's loop decrypts. -/
theorem cbcDec_of_IsCbc {enc dec : List UInt8 → List UInt8} (hdl : ∀ b, b.length = 16 → (dec b).length = 16)
    (hde : ∀ b, b.length = 16 → dec (enc b) = b) {n : Nat} {iv plain cipher : List UInt8}
    (hiv : iv.length = 16) (hp : plain.length = 16 * n) (h : IsCbc enc iv plain cipher) : cbcDec dec n iv cipher = plain := by
  obtain ⟨hl, _, hb⟩ := h
  have hc : cipher.length = 16 * n := by omega
  refine eq_of_blocks (cbcDec_len hdl n iv cipher hiv hc) hp ?_
  intro i hi
  have h1 := chain_len (iv := iv) hiv hc (Nat.le_of_lt hi)
  have h2 := block_len hp hi
  rw [cbcDec_block hdl n iv cipher hiv hc i hi, hb i (by omega), xorBytes_eq, hde _ (by rw [xor_len (by omega), h2]),
    xor_xor (by omega)]

theorem xor_assoc : ∀ (x y z : List UInt8), xor x (xor y z) = xor (xor x y) z := by
  intro x
  induction x with
  | nil => intros; simp [xor]
  | cons p x ih =>
    intro y z
    cases y with
    | nil => simp [xor]
    | cons q y =>
      cases z with
      | nil => simp [xor]
      | cons r z =>
        have := ih y z
        simp only [xor] at this
        simp only [xor, List.zipWith_cons_cons, this, UInt8.xor_assoc]

/-- Changing one ciphertext block by a mask. -/
theorem cbcDec_flip {dec : List UInt8 → List UInt8} (hdl : ∀ b, b.length = 16 → (dec b).length = 16) {n : Nat} {iv d d' m : List UInt8}
    (hiv : iv.length = 16) (hd : d.length = 16 * n) (hd' : d'.length = 16 * n) (i : Nat) (hi : i + 1 < n)
    (hflip : block d' i = xorBytes (block d i) m) (hsame : ∀ j, j < n → j ≠ i → block d' j = block d j) :
    block (cbcDec dec n iv d') (i + 1) = xorBytes (block (cbcDec dec n iv d) (i + 1)) m ∧
    ∀ j, j < n → j ≠ i → j ≠ i + 1 → block (cbcDec dec n iv d') j = block (cbcDec dec n iv d) j := by
  have hb := cbcDec_block hdl n iv d hiv hd
  have hb' := cbcDec_block hdl n iv d' hiv hd'
  refine ⟨?_, ?_⟩
  · rw [hb' (i + 1) hi, hb (i + 1) hi, hsame (i + 1) hi (by omega), xorBytes_eq]
    simp only [chain]
    rw [hflip, xorBytes_eq, xor_assoc]
  · intro j hj h1 h2
    rw [hb' j hj, hb j hj, hsame j hj h1]
    congr 1
    cases j with
    | zero => rfl
    | succ j => exact hsame j (by omega) (by omega)

theorem block_take {p : List UInt8} {l j : Nat} (h : 16 * (j + 1) ≤ l) : block (p.take l) j = block p j := by
  simp only [block, List.drop_take, List.take_take]
  congr 1; omega

theorem block_take_congr {p q : List UInt8} {l j : Nat} (h : block p j = block q j) : block (p.take l) j = block (q.take l) j := by
  have : ∀ r : List UInt8, block (r.take l) j = (block r j).take (l - 16 * j) := by
    intro r
    simp only [block, List.drop_take, List.take_take]
    congr 1; omega
  rw [this, this, h]

theorem copyInto_self {n : Nat} {s : List UInt8} (h : s.length = n) : copyInto n s = s := by
  simp [copyInto, h, List.take_of_length_le]

theorem padding_pkcs7 (p : List UInt8) : IsPkcs7 p (p ++ padding p.length) := by
  refine ⟨16 - p.length % 16, by omega, by omega, rfl, ?_⟩
  rw [List.length_append, padding_len]; omega

theorem pkcs7_unique {p q : List UInt8} (h : IsPkcs7 p q) : q = p ++ padding p.length := by
  obtain ⟨k, h1, h2, rfl, h4⟩ := h
  simp only [List.length_append, List.length_replicate] at h4
  have : k = 16 - p.length % 16 := by omega
  subst this
  rfl

end Gofer.Aes
