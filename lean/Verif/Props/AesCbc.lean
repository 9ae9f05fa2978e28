import Verif.Proof.AesCbc
import Verif.Props.Aes

/-! # AES-CBC helpers: standard format and malleability, properties C129 and C130 -/
namespace Gofer.Props.AesCbc
open Gofer.Aes Gofer.GoSlice Gofer.Spec.Cbc Gofer.Props.Aes

/-- The digest lengths: SHA-256 gives 32 bytes, MD5 gives 16. -/
structure DigestLengths (c : Crypto) : Prop where
  sha : ∀ s, (c.sha256 s).length = 32
  md5 : ∀ s, (c.md5 s).length = 16

/-- C129. `EncrypterCbc` produces the standard format: PKCS#7 padding, then CBC under the AES key
SHA-256(key) with the iv MD5(iv). Any other implementation of AES-256-CBC can decrypt it. -/
theorem C129_encrypt_standard (c : Crypto) (hc : c.Lawful) (hd : DigestLengths c) (iv key : List UInt8) (extra : Nat)
    (h : Heap) (src : Slice) (v : Valid h src) :
    ∃ padded, IsPkcs7 (bytes h src) padded ∧
      IsCbc (c.aesEnc (c.sha256 key)) (c.md5 iv) padded
        (bytes (encrypterCbc c (newAes c iv key) extra h src).1 (encrypterCbc c (newAes c iv key) extra h src).2) := by
  obtain ⟨_, _, be⟩ := encrypter_spec hc iv key extra v
  rw [be]
  simp only [newAes, copyInto_self (hd.sha key), copyInto_self (hd.md5 iv)]
  have hl : (bytes h src ++ padding src.len).length = 16 * (src.len / 16 + 1) := by
    rw [List.length_append, length_bytes v, padding_len]; omega
  refine ⟨bytes h src ++ padding src.len, ?_, ?_, by omega, ?_⟩
  · have := padding_pkcs7 (bytes h src)
    rwa [length_bytes v] at this
  · rw [cbcEnc_len (hc.enc_len _) _ _ _ (hd.md5 iv) hl, hl]
  · intro i hi
    rw [xorBytes_eq]
    exact cbcEnc_block (hc.enc_len _) _ _ _ (hd.md5 iv) hl i (by omega)

/-- C129. `DecrypterCbc` decrypts every text in the standard format, whoever encrypted it. -/
theorem C129_decrypt_standard (c : Crypto) (hc : c.Lawful) (hd : DigestLengths c) (iv key plain padded : List UInt8)
    (h : Heap) (s : Slice) (v : Valid h s) (hp : IsPkcs7 plain padded)
    (he : IsCbc (c.aesEnc (c.sha256 key)) (c.md5 iv) padded (bytes h s)) :
    ∃ h' r, decrypterCbc c (newAes c iv key) h s = .ok (h', r) ∧ bytes h' r = plain := by
  have hpl := pkcs7_unique hp
  have hlen : padded.length = 16 * (plain.length / 16 + 1) := by
    rw [hpl, List.length_append, padding_len]; omega
  have hsl : s.len = padded.length := by rw [← length_bytes v, he.1]
  have hplain : cbcDec (c.aesDec (newAes c iv key).commonKey256) (s.len / 16) (newAes c iv key).commonIV (bytes h s) = padded := by
    simp only [newAes, copyInto_self (hd.sha key), copyInto_self (hd.md5 iv)]
    exact cbcDec_of_IsCbc (hc.dec_len _) (hc.dec_enc _) (hd.md5 iv) (by omega) he
  obtain ⟨h1, h2⟩ := C36_panic_iff_partial c hc iv key h s v
  rw [hplain] at h1 h2
  have hlast : padded.getLast? = some (16 - plain.length % 16).toUInt8 := by
    rw [hpl, List.getLast?_append, padding, show 16 - plain.length % 16 = (15 - plain.length % 16) + 1 by omega, List.replicate_succ']
    simp
  have hto : (16 - plain.length % 16).toUInt8.toNat = 16 - plain.length % 16 := by simp [Nat.toUInt8]; omega
  cases hr : decrypterCbc c (newAes c iv key) h s with
  | panic =>
    exfalso
    rcases h1.1 hr with h0 | h0 | ⟨l, hl, h0⟩
    · omega
    · omega
    · rw [hlast] at hl
      obtain rfl := Option.some.inj hl
      omega
  | ok p =>
    obtain ⟨h', r⟩ := p
    refine ⟨h', r, rfl, ?_⟩
    obtain ⟨l, hl, hb⟩ := h2 h' r hr
    rw [hlast] at hl
    obtain rfl := Option.some.inj hl
    rw [hb, hto, hpl, List.length_append, padding_len]
    rw [List.take_append_of_le_length (by omega), List.take_of_length_le (by omega)]

/-- C130. There is no integrity protection. Somebody without the key takes a ciphertext of `EncrypterCbc`
and combines its block `i` with a mask `m`, with blocks `i` and `i+1` both full of message bytes. Then
`DecrypterCbc` succeeds and returns a message of the same length in which exactly the masked bits of
block `i+1` are flipped; besides, only block `i` differs. -/
theorem C130_malleable (c : Crypto) (hc : c.Lawful) (iv key : List UInt8) (extra : Nat) (h : Heap) (src : Slice) (v : Valid h src)
    (h' : Heap) (s' : Slice) (v' : Valid h' s') (i : Nat) (hi : 16 * (i + 2) ≤ src.len) (m : List UInt8)
    (cipher : List UInt8)
    (hcip : cipher = bytes (encrypterCbc c (newAes c iv key) extra h src).1 (encrypterCbc c (newAes c iv key) extra h src).2)
    (hlen : (bytes h' s').length = cipher.length)
    (hflip : block (bytes h' s') i = xorBytes (block cipher i) m) (hsame : ∀ j, j ≠ i → block (bytes h' s') j = block cipher j) :
    ∃ h'' r, decrypterCbc c (newAes c iv key) h' s' = .ok (h'', r) ∧
      (bytes h'' r).length = (bytes h src).length ∧
      block (bytes h'' r) (i + 1) = xorBytes (block (bytes h src) (i + 1)) m ∧
      ∀ j, j ≠ i → j ≠ i + 1 → block (bytes h'' r) j = block (bytes h src) j := by
  obtain ⟨ve, le, be⟩ := encrypter_spec hc iv key extra v
  have hcl : cipher.length = 16 * (src.len / 16 + 1) := by rw [hcip, length_bytes ve, le]
  have hsl : s'.len = 16 * (src.len / 16 + 1) := by rw [← length_bytes v', hlen, hcl]
  have hdiv : s'.len / 16 = src.len / 16 + 1 := by omega
  have hpl : (bytes h src ++ padding src.len).length = 16 * (src.len / 16 + 1) := by
    rw [List.length_append, length_bytes v, padding_len]; omega
  have hiv := iv_len c iv key
  have hdec : cbcDec (c.aesDec (newAes c iv key).commonKey256) (src.len / 16 + 1) (newAes c iv key).commonIV cipher =
      bytes h src ++ padding src.len := by
    rw [hcip, be]
    exact cbc_dec_enc (hc.enc_len _) (hc.dec_enc _) _ _ _ hiv hpl
  obtain ⟨f1, f2⟩ := cbcDec_flip (m := m) (hc.dec_len (newAes c iv key).commonKey256) hiv hcl (by rw [hlen, hcl]) i (by omega) hflip
    (fun j _ hj => hsame j hj)
  rw [hdec] at f1 f2
  obtain ⟨g1, g2⟩ := C36_panic_iff_partial c hc iv key h' s' v'
  rw [hdiv] at g1 g2
  have hql := cbcDec_len (hc.dec_len (newAes c iv key).commonKey256) (src.len / 16 + 1) (newAes c iv key).commonIV (bytes h' s') hiv
    (by rw [hlen, hcl])
  generalize cbcDec (c.aesDec (newAes c iv key).commonKey256) (src.len / 16 + 1) (newAes c iv key).commonIV (bytes h' s') = q at *
  have hlast : q.getLast? = some (16 - src.len % 16).toUInt8 := by
    have hb := f2 (src.len / 16) (by omega) (by omega) (by omega)
    have e : ∀ p : List UInt8, p.length = 16 * (src.len / 16 + 1) → p.getLast? = (block p (src.len / 16)).getLast? := by
      intro p hp
      rw [block, List.take_of_length_le (by simp; omega), List.getLast?_drop, if_neg (by omega)]
    rw [e q hql, hb, ← e _ hpl, List.getLast?_append, padding, show 16 - src.len % 16 = (15 - src.len % 16) + 1 by omega,
      List.replicate_succ']
    simp
  have hto : (16 - src.len % 16).toUInt8.toNat = 16 - src.len % 16 := by simp [Nat.toUInt8]; omega
  cases hr : decrypterCbc c (newAes c iv key) h' s' with
  | panic =>
    exfalso
    rcases g1.1 hr with h0 | h0 | ⟨l, hl, h0⟩
    · omega
    · omega
    · rw [hlast] at hl
      obtain rfl := Option.some.inj hl
      omega
  | ok p =>
    obtain ⟨h'', r⟩ := p
    obtain ⟨l, hl, hb⟩ := g2 h'' r hr
    rw [hlast] at hl
    obtain rfl := Option.some.inj hl
    rw [hto, hql, show 16 * (src.len / 16 + 1) - (16 - src.len % 16) = src.len by omega] at hb
    have hsrc : bytes h src = (bytes h src ++ padding src.len).take src.len := by
      rw [List.take_append_of_le_length (by rw [length_bytes v]; omega), List.take_of_length_le (by rw [length_bytes v]; omega)]
    refine ⟨h'', r, rfl, ?_, ?_, ?_⟩
    · rw [hb, length_bytes v, List.length_take]; omega
    · rw [hb, hsrc, block_take (by omega), block_take (by omega), f1]
    · intro j h1 h2
      rw [hb, hsrc]
      by_cases hj : j < src.len / 16 + 1
      · exact block_take_congr (f2 j hj h1 h2)
      · have e : ∀ p : List UInt8, block (p.take src.len) j = [] := by
          intro p
          simp only [block]
          rw [List.drop_eq_nil_of_le (by rw [List.length_take]; omega)]; rfl
        rw [e, e]

/-! ### Concrete cases -/

/-- A lawful stand-in with digests of the right lengths. -/
def toyCrypto : Crypto := ⟨fun s => copyInto 16 s, fun s => copyInto 32 s, xorCrypto.aesEnc, xorCrypto.aesDec⟩

theorem toy_lawful : toyCrypto.Lawful := ⟨xorCrypto_lawful.1, xorCrypto_lawful.2, xorCrypto_lawful.3⟩
theorem toy_lengths : DigestLengths toyCrypto := ⟨fun s => copyInto_len 32 s, fun s => copyInto_len 16 s⟩

/-- The standard format for a three-byte message. -/
example : ∃ padded, IsPkcs7 [5, 6, 7] padded ∧ IsCbc (toyCrypto.aesEnc (toyCrypto.sha256 [2])) (toyCrypto.md5 [1]) padded
    (bytes (encrypterCbc toyCrypto (newAes toyCrypto [1] [2]) 0 ⟨[[5, 6, 7]]⟩ ⟨0, 0, 3, 3⟩).1
      (encrypterCbc toyCrypto (newAes toyCrypto [1] [2]) 0 ⟨[[5, 6, 7]]⟩ ⟨0, 0, 3, 3⟩).2) :=
  C129_encrypt_standard toyCrypto toy_lawful toy_lengths [1] [2] 0 ⟨[[5, 6, 7]]⟩ ⟨0, 0, 3, 3⟩ ⟨by decide, by decide, by decide⟩

/-- A 35-byte message; byte 3 of the first ciphertext block changed: byte 19 of the message changes too. -/
example : (match decrypterCbc toyCrypto (newAes toyCrypto [1] [2])
      ⟨[(bytes (encrypterCbc toyCrypto (newAes toyCrypto [1] [2]) 0 ⟨[List.replicate 35 7]⟩ ⟨0, 0, 35, 35⟩).1
        (encrypterCbc toyCrypto (newAes toyCrypto [1] [2]) 0 ⟨[List.replicate 35 7]⟩ ⟨0, 0, 35, 35⟩).2).modify 3 (· ^^^ 96)]⟩ ⟨0, 0, 48, 48⟩ with
    | .ok (h, p) => bytes h p
    | .panic => []) = ((List.replicate 35 7).set 3 103).set 19 103 := by decide +kernel

end Gofer.Props.AesCbc
