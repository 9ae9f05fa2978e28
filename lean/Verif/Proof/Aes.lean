import Verif.Model.Aes
import Verif.Proof.GoSlice

namespace Gofer.Aes
open Gofer.GoSlice

theorem xor_xor {a b : List UInt8} (h : a.length = b.length) : xor (xor a b) b = a := by
  induction a generalizing b with
  | nil => rfl
  | cons x a ih =>
    cases b with
    | nil => simp at h
    | cons y b =>
      simp only [List.length_cons, Nat.add_right_cancel_iff] at h
      simp only [xor, List.zipWith_cons_cons] at ih ⊢
      rw [ih h, UInt8.xor_assoc, UInt8.xor_self, UInt8.xor_zero]

theorem xor_len {a b : List UInt8} (h : a.length = b.length) : (xor a b).length = a.length := by
  simp [xor, h]

theorem copyInto_len (n : Nat) (s : List UInt8) : (copyInto n s).length = n := by
  simp [copyInto]; omega

theorem iv_len (c : Crypto) (iv key : List UInt8) : (newAes c iv key).commonIV.length = 16 := copyInto_len _ _

theorem cbcEnc_len {enc : List UInt8 → List UInt8} (he : ∀ b, b.length = 16 → (enc b).length = 16) (n : Nat) (iv d : List UInt8)
    (hiv : iv.length = 16) (hd : d.length = 16 * n) : (cbcEnc enc n iv d).length = 16 * n := by
  induction n generalizing iv d with
  | zero => simp [cbcEnc]
  | succ n ih =>
    have h1 : (d.take 16).length = 16 := by simp; omega
    have h2 : (enc (xor (d.take 16) iv)).length = 16 := he _ (by rw [xor_len (by omega), h1])
    simp only [cbcEnc, List.length_append, h2]
    rw [ih _ _ h2 (by simp; omega)]; omega

theorem cbcDec_len {dec : List UInt8 → List UInt8} (he : ∀ b, b.length = 16 → (dec b).length = 16) (n : Nat) (iv d : List UInt8)
    (hiv : iv.length = 16) (hd : d.length = 16 * n) : (cbcDec dec n iv d).length = 16 * n := by
  induction n generalizing iv d with
  | zero => simp [cbcDec]
  | succ n ih =>
    have h1 : (d.take 16).length = 16 := by simp; omega
    simp only [cbcDec, List.length_append]
    rw [ih _ _ h1 (by simp; omega), xor_len (by rw [he _ h1, hiv]), he _ h1]; omega

theorem cbc_dec_enc {enc dec : List UInt8 → List UInt8} (he : ∀ b, b.length = 16 → (enc b).length = 16)
    (hde : ∀ b, b.length = 16 → dec (enc b) = b) (n : Nat) (iv d : List UInt8)
    (hiv : iv.length = 16) (hd : d.length = 16 * n) : cbcDec dec n iv (cbcEnc enc n iv d) = d := by
  induction n generalizing iv d with
  | zero =>
    have : d = [] := List.eq_nil_of_length_eq_zero (by omega)
    simp [cbcDec, this]
  | succ n ih =>
    have h1 : (d.take 16).length = 16 := by simp; omega
    have h3 : (xor (d.take 16) iv).length = 16 := by rw [xor_len (by omega), h1]
    have h2 : (enc (xor (d.take 16) iv)).length = 16 := he _ h3
    simp only [cbcEnc, cbcDec]
    rw [List.take_append_of_le_length (by omega), List.take_of_length_le (by omega)]
    rw [List.drop_append_of_le_length (by omega), List.drop_eq_nil_of_le (by omega), List.nil_append]
    rw [ih _ _ h2 (by simp; omega), hde _ h3, xor_xor (by omega), List.take_append_drop]

/-- The first `m` blocks of the ciphertext depend only on the first `m` blocks of the plaintext. -/
theorem cbcEnc_prefix {enc : List UInt8 → List UInt8} (he : ∀ b, b.length = 16 → (enc b).length = 16) (m : Nat) :
    ∀ (n n' : Nat) (iv d d' : List UInt8), iv.length = 16 → d.length = 16 * n → d'.length = 16 * n' → m ≤ n → m ≤ n' →
      d.take (16 * m) = d'.take (16 * m) → (cbcEnc enc n iv d).take (16 * m) = (cbcEnc enc n' iv d').take (16 * m) := by
  induction m with
  | zero => intros; simp
  | succ m ih =>
    intro n n' iv d d' hiv hd hd' hn hn' heq
    obtain ⟨n, rfl⟩ : ∃ k, n = k + 1 := ⟨n - 1, by omega⟩
    obtain ⟨n', rfl⟩ : ∃ k, n' = k + 1 := ⟨n' - 1, by omega⟩
    have e1 : d.take 16 = d'.take 16 := by
      have := congrArg (List.take 16) heq
      simpa [List.take_take, show min 16 (16 * (m + 1)) = 16 by omega] using this
    have e2 : (d.drop 16).take (16 * m) = (d'.drop 16).take (16 * m) := by
      have := congrArg (List.drop 16) heq
      rw [List.drop_take, List.drop_take] at this
      simpa [show 16 * (m + 1) - 16 = 16 * m by omega] using this
    have h1 : (d.take 16).length = 16 := by simp; omega
    have h3 : (xor (d.take 16) iv).length = 16 := by rw [xor_len (by omega), h1]
    have h2 := he _ h3
    simp only [cbcEnc]
    rw [← e1]
    rw [show 16 * (m + 1) = (enc (xor (d.take 16) iv)).length + 16 * m by omega, List.take_append, List.take_append]
    simp only [Nat.add_sub_cancel_left]
    rw [ih n n' _ _ _ h2 (by simp; omega) (by simp; omega) (by omega) (by omega) e2]

theorem padding_len (n : Nat) : (padding n).length = 16 - n % 16 := by simp [padding]

/-- What the encrypter returns. -/
theorem encrypter_spec {c : Crypto} (hc : c.Lawful) (iv key : List UInt8) (extra : Nat) {h : Heap} {s : Slice} (v : Valid h s) :
    Valid (encrypterCbc c (newAes c iv key) extra h s).1 (encrypterCbc c (newAes c iv key) extra h s).2 ∧
    (encrypterCbc c (newAes c iv key) extra h s).2.len = 16 * (s.len / 16 + 1) ∧
    bytes (encrypterCbc c (newAes c iv key) extra h s).1 (encrypterCbc c (newAes c iv key) extra h s).2 =
      cbcEnc (c.aesEnc (newAes c iv key).commonKey256) (s.len / 16 + 1) (newAes c iv key).commonIV
        (bytes h s ++ padding s.len) := by
  obtain ⟨v1, b1, l1⟩ := append_spec v (padding s.len) extra
  rw [padding_len] at l1
  have hlen : (append h s (padding s.len) extra).2.len = 16 * (s.len / 16 + 1) := by rw [l1]; omega
  have hdiv : (append h s (padding s.len) extra).2.len / 16 = s.len / 16 + 1 := by rw [hlen]; omega
  have hcl := cbcEnc_len (hc.enc_len (newAes c iv key).commonKey256) (s.len / 16 + 1) (newAes c iv key).commonIV
    (bytes h s ++ padding s.len) (iv_len ..) (by rw [List.length_append, length_bytes v, padding_len]; omega)
  unfold encrypterCbc
  simp only
  rw [b1, hdiv]
  refine ⟨?_, hlen, bytes_fill v1 (by rw [hcl, hlen])⟩
  refine valid_write v1 _ _ _ ?_
  have := v1.cap; have := v1.len
  rw [hcl, ← hlen]; omega

/-- What the decrypter returns, in terms of the decrypted bytes. -/
theorem decrypter_spec {c : Crypto} (hc : c.Lawful) (iv key : List UInt8) {h : Heap} {s : Slice} (v : Valid h s)
    (h16 : s.len % 16 = 0) :
    ∃ h' r, Valid h' r ∧ r.len = s.len ∧
      bytes h' r = cbcDec (c.aesDec (newAes c iv key).commonKey256) (s.len / 16) (newAes c iv key).commonIV (bytes h s) ∧
      decrypterCbc c (newAes c iv key) h s = (match (bytes h' r).getLast? with
        | none => .panic
        | some last => if last.toNat > s.len then .panic else .ok (h', { r with len := s.len - last.toNat })) ∧
      ∀ i, i < h.arrays.length → h'.get i = h.get i := by
  have v0 := valid_alloc v (List.replicate s.len 0)
  have b0 : bytes (make h s.len).1 s = bytes h s := by
    simp only [bytes, make]
    rw [get_alloc_old _ _ v.arr]
  have vr : Valid (make h s.len).1 (make h s.len).2 := by
    refine ⟨by simp only [make, alloc_len, alloc_snd]; omega, ?_, by simp [make]⟩
    simp only [make, alloc_snd]
    rw [get_alloc_new]; simp
  have hcl := cbcDec_len (hc.dec_len (newAes c iv key).commonKey256) (s.len / 16) (newAes c iv key).commonIV
    (bytes h s) (iv_len ..) (by rw [length_bytes v]; omega)
  have hcl' : 16 * (s.len / 16) = s.len := by omega
  refine ⟨_, (make h s.len).2, valid_write vr _ _ _ ?_, rfl, bytes_fill vr (by rw [hcl, hcl']; rfl), ?_, ?_⟩
  · rw [hcl, hcl']
    exact vr.cap
  · simp only [decrypterCbc]
    rw [if_neg (by omega), b0]
    rfl
  · intro i hi
    rw [get_write_ne]
    · simp only [make]; rw [get_alloc_old _ _ hi]
    · simp only [make, alloc_snd]; omega

end Gofer.Aes
