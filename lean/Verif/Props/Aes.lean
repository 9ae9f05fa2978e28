import Verif.Proof.Aes

/-! # AES-CBC helpers: properties C35–C37, C80 -/
namespace Gofer.Props.Aes
open Gofer.Aes Gofer.GoSlice

/-- C35. Round trip: any slice in any later heap holding the bytes that `EncrypterCbc` returned decrypts
to the original plaintext, with the same iv and key strings. -/
theorem C35_roundtrip (c : Crypto) (hc : c.Lawful) (iv key : List UInt8) (extra : Nat) (h : Heap) (src : Slice) (v : Valid h src)
    (h' : Heap) (s' : Slice) (v' : Valid h' s')
    (hb : bytes h' s' = bytes (encrypterCbc c (newAes c iv key) extra h src).1 (encrypterCbc c (newAes c iv key) extra h src).2) :
    ∃ h'' p, decrypterCbc c (newAes c iv key) h' s' = .ok (h'', p) ∧ bytes h'' p = bytes h src := by
  obtain ⟨ve, le, be⟩ := encrypter_spec hc iv key extra v
  have hl' : s'.len = 16 * (src.len / 16 + 1) := by
    rw [← length_bytes v', hb, length_bytes ve, le]
  obtain ⟨h2, r, vr, lr, br, hd, _⟩ := decrypter_spec hc iv key v' (by omega)
  have hdiv : s'.len / 16 = src.len / 16 + 1 := by omega
  rw [hb, be, hdiv, cbc_dec_enc (hc.enc_len _) (hc.dec_enc _) _ _ _ (iv_len ..)
    (by rw [List.length_append, length_bytes v, padding_len]; omega)] at br
  have hlast : (bytes h2 r).getLast? = some (16 - src.len % 16).toUInt8 := by
    rw [br, List.getLast?_append, padding, show 16 - src.len % 16 = (15 - src.len % 16) + 1 by omega, List.replicate_succ']
    simp
  have hto : (16 - src.len % 16).toUInt8.toNat = 16 - src.len % 16 := by
    simp [Nat.toUInt8]; omega
  rw [hlast] at hd
  simp only [hto] at hd
  rw [if_neg (by omega)] at hd
  refine ⟨h2, _, hd, ?_⟩
  have e : ∀ n ≤ r.len, bytes h2 { r with len := n } = (bytes h2 r).take n := by
    intro n hn
    simp only [bytes, List.take_take]
    congr 1; omega
  rw [e _ (by omega), br, List.take_append_of_le_length (by rw [length_bytes v]; omega),
    List.take_of_length_le (by rw [length_bytes v]; omega)]

/-- C35. The ciphertext length is the next multiple of 16 strictly above the plaintext length. -/
theorem C35_length (c : Crypto) (hc : c.Lawful) (iv key : List UInt8) (extra : Nat) (h : Heap) (src : Slice) (v : Valid h src) :
    let n := (bytes (encrypterCbc c (newAes c iv key) extra h src).1 (encrypterCbc c (newAes c iv key) extra h src).2).length
    n % 16 = 0 ∧ (bytes h src).length < n ∧ n ≤ (bytes h src).length + 16 := by
  obtain ⟨ve, le, _⟩ := encrypter_spec hc iv key extra v
  simp only
  rw [length_bytes ve, le, length_bytes v]
  omega

/-- C35. `AesDecrypter` undoes `AesEncrypter`. -/
theorem C35_aesEncrypter (c : Crypto) (hc : c.Lawful) (key : List UInt8) (extra : Nat) (h : Heap) (src : Slice) (v : Valid h src) :
    ∃ h'' p, aesDecrypter c (aesEncrypter c extra h src key).1 (aesEncrypter c extra h src key).2 key = .ok (h'', p) ∧
      bytes h'' p = bytes h src :=
  C35_roundtrip c hc key key extra h src v _ _ (encrypter_spec hc key key extra v).1 rfl

/-- C36, as stated. -/
def C36_claim : Prop := ∀ (c : Crypto), c.Lawful → ∀ (iv key : List UInt8) (h : Heap) (s : Slice), Valid h s →
  decrypterCbc c (newAes c iv key) h s ≠ .panic

/-- A lawful stand-in for AES: exclusive or with the first 16 key bytes. -/
def xorCrypto : Crypto := ⟨id, id, fun k b => xor b (copyInto 16 k), fun k b => xor b (copyInto 16 k)⟩

theorem xorCrypto_lawful : xorCrypto.Lawful := by
  refine ⟨?_, ?_, ?_⟩
  · intro k b hb; simp only [xorCrypto]; rw [xor_len (by rw [copyInto_len, hb]), hb]
  · intro k b hb; simp only [xorCrypto]; rw [xor_len (by rw [copyInto_len, hb]), hb]
  · intro k b hb; simp only [xorCrypto]; exact xor_xor (by rw [copyInto_len, hb])

/-- C36 is false: the empty input panics, whatever the cipher. -/
theorem C36_claim_false : ¬ C36_claim := by
  intro h
  exact h xorCrypto xorCrypto_lawful [] [] ⟨[[]]⟩ ⟨0, 0, 0, 0⟩ ⟨by decide, by decide, by decide⟩ (by decide +kernel)

/-- C36 (what holds). `DecrypterCbc` panics exactly when the input is empty, not a multiple of 16 bytes
long, or decrypts to bytes whose last one exceeds the length. (The padding is not checked otherwise: the
result is the decryption without as many final bytes as the last byte says, so a last byte of 0 removes
nothing.) -/
theorem C36_panic_iff_partial (c : Crypto) (hc : c.Lawful) (iv key : List UInt8) (h : Heap) (s : Slice) (v : Valid h s) :
    let plain := cbcDec (c.aesDec (newAes c iv key).commonKey256) (s.len / 16) (newAes c iv key).commonIV (bytes h s)
    (decrypterCbc c (newAes c iv key) h s = .panic ↔
      s.len = 0 ∨ s.len % 16 ≠ 0 ∨ ∃ last, plain.getLast? = some last ∧ s.len < last.toNat) ∧
    ∀ h' r, decrypterCbc c (newAes c iv key) h s = .ok (h', r) →
      ∃ last, plain.getLast? = some last ∧ bytes h' r = plain.take (plain.length - last.toNat) := by
  intro plain
  by_cases h16 : s.len % 16 = 0
  · obtain ⟨h2, r, vr, lr, br, hd, _⟩ := decrypter_spec hc iv key v h16
    change bytes h2 r = plain at br
    have hlen : plain.length = s.len := by rw [← br, length_bytes vr, lr]
    rw [br] at hd
    cases hl : plain.getLast? with
    | none =>
      rw [hl] at hd
      simp only at hd
      have : plain = [] := List.getLast?_eq_none_iff.1 hl
      have h0 : s.len = 0 := by rw [← hlen, this]; rfl
      rw [hd]
      exact ⟨⟨fun _ => Or.inl h0, fun _ => rfl⟩, fun _ _ hc => by simp at hc⟩
    | some last =>
      rw [hl] at hd
      simp only at hd
      have hpos : 0 < s.len := by
        rw [← hlen]
        cases hp : plain with
        | nil => rw [hp] at hl; simp at hl
        | cons => simp
      by_cases hg : last.toNat > s.len
      · rw [if_pos hg] at hd
        rw [hd]
        exact ⟨⟨fun _ => Or.inr (Or.inr ⟨last, rfl, hg⟩), fun _ => rfl⟩, fun _ _ hc => by simp at hc⟩
      · rw [if_neg hg] at hd
        rw [hd]
        refine ⟨⟨fun hc => by simp at hc, ?_⟩, ?_⟩
        · rintro (h0 | h0 | ⟨l, hl', h0⟩)
          · omega
          · exact absurd h16 h0
          · obtain rfl := Option.some.inj hl'
            exact absurd h0 hg
        · intro h' r' he
          simp only [Result.ok.injEq, Prod.mk.injEq] at he
          obtain ⟨rfl, rfl⟩ := he
          refine ⟨last, rfl, ?_⟩
          rw [hlen, ← br]
          simp only [bytes, List.take_take]
          congr 1; omega
  · have hd : decrypterCbc c (newAes c iv key) h s = .panic := by
      simp only [decrypterCbc]
      rw [if_pos h16]
    rw [hd]
    exact ⟨⟨fun _ => Or.inr (Or.inl h16), fun _ => rfl⟩, fun _ _ hc => by simp at hc⟩

/-- C36. Decryption never touches the caller's memory. -/
theorem C36_input_unchanged (c : Crypto) (hc : c.Lawful) (iv key : List UInt8) (h h' : Heap) (s r : Slice) (v : Valid h s)
    (he : decrypterCbc c (newAes c iv key) h s = .ok (h', r)) (i : Nat) (hi : i < h.arrays.length) : h'.get i = h.get i := by
  by_cases h16 : s.len % 16 = 0
  · obtain ⟨h2, r2, vr, lr, br, hd, hu⟩ := decrypter_spec hc iv key v h16
    rw [hd] at he
    split at he
    · simp at he
    · split at he
      · simp at he
      · simp only [Result.ok.injEq, Prod.mk.injEq] at he
        rw [← he.1]; exact hu i hi
  · simp only [decrypterCbc] at he
    rw [if_pos h16] at he
    simp at he

/-- C37, as stated. -/
def C37_claim : Prop := ∀ (c : Crypto), c.Lawful → ∀ (iv key : List UInt8) (extra : Nat) (h : Heap) (src : Slice), Valid h src →
  ∀ i < h.arrays.length, (encrypterCbc c (newAes c iv key) extra h src).1.get i = h.get i

/-- C37 is false: a one-byte slice at the start of a 32-byte buffer; the buffer is overwritten. -/
theorem C37_claim_false : ¬ C37_claim := by
  intro h
  have := h xorCrypto xorCrypto_lawful [] [9] 0 ⟨[List.replicate 32 7]⟩ ⟨0, 0, 1, 32⟩ ⟨by decide, by decide, by decide⟩ 0 (by decide)
  revert this
  decide +kernel

/-- C37 (what holds). If the slice has no room for the padding, no existing memory changes. -/
theorem C37_no_room_partial (c : Crypto) (iv key : List UInt8) (extra : Nat) (h : Heap) (src : Slice)
    (hroom : src.cap < 16 * (src.len / 16 + 1)) (i : Nat) (hi : i < h.arrays.length) :
    (encrypterCbc c (newAes c iv key) extra h src).1.get i = h.get i := by
  have hp := padding_len src.len
  have ha : append h src (padding src.len) extra =
      ((h.alloc (bytes h src ++ padding src.len ++ List.replicate extra 0)).1,
       ⟨h.arrays.length, 0, src.len + (padding src.len).length, src.len + (padding src.len).length + extra⟩) := by
    unfold append
    rw [if_neg (by rw [hp]; omega)]; rfl
  simp only [encrypterCbc, ha, fill]
  rw [get_write_ne _ _ _ (by omega), get_alloc_old _ _ hi]

/-- C37 (what happens otherwise). If there is room, the returned slice is the caller's own array: the
ciphertext replaces the plaintext and the spare bytes after it. Every other array is untouched. -/
theorem C37_room_partial (c : Crypto) (hc : c.Lawful) (iv key : List UInt8) (extra : Nat) (h : Heap) (src : Slice) (v : Valid h src)
    (hroom : 16 * (src.len / 16 + 1) ≤ src.cap) :
    (encrypterCbc c (newAes c iv key) extra h src).2 = { src with len := 16 * (src.len / 16 + 1) } ∧
    bytes (encrypterCbc c (newAes c iv key) extra h src).1 src =
      (cbcEnc (c.aesEnc (newAes c iv key).commonKey256) (src.len / 16 + 1) (newAes c iv key).commonIV
        (bytes h src ++ padding src.len)).take src.len ∧
    ∀ i, i ≠ src.arr → (encrypterCbc c (newAes c iv key) extra h src).1.get i = h.get i := by
  have hp := padding_len src.len
  have ha : append h src (padding src.len) extra =
      (h.write src.arr (src.off + src.len) (padding src.len), { src with len := 16 * (src.len / 16 + 1) }) := by
    unfold append
    rw [if_pos (by rw [hp]; omega)]
    congr 2; rw [hp]; omega
  obtain ⟨ve, le, be⟩ := encrypter_spec hc iv key extra v
  have h1 : (encrypterCbc c (newAes c iv key) extra h src).2 = { src with len := 16 * (src.len / 16 + 1) } := by
    simp only [encrypterCbc, ha]
  refine ⟨h1, ?_, ?_⟩
  · rw [← be, h1]
    simp only [bytes, List.take_take]
    congr 1; omega
  · intro i hi
    simp only [encrypterCbc, ha, fill]
    rw [get_write_ne _ _ _ hi, get_write_ne _ _ _ hi]

/-- C80. The iv is fixed, so equal plaintext beginnings show: if two plaintexts agree on their first
`16*m` bytes, the ciphertexts (same iv and key) agree on theirs. -/
theorem C80_equal_prefixes (c : Crypto) (hc : c.Lawful) (iv key : List UInt8) (extra extra' : Nat) (h h' : Heap) (s s' : Slice)
    (v : Valid h s) (v' : Valid h' s') (m : Nat) (hm : 16 * m ≤ s.len) (hm' : 16 * m ≤ s'.len)
    (heq : (bytes h s).take (16 * m) = (bytes h' s').take (16 * m)) :
    (bytes (encrypterCbc c (newAes c iv key) extra h s).1 (encrypterCbc c (newAes c iv key) extra h s).2).take (16 * m) =
    (bytes (encrypterCbc c (newAes c iv key) extra' h' s').1 (encrypterCbc c (newAes c iv key) extra' h' s').2).take (16 * m) := by
  obtain ⟨_, _, be⟩ := encrypter_spec hc iv key extra v
  obtain ⟨_, _, be'⟩ := encrypter_spec hc iv key extra' v'
  rw [be, be']
  have hl := length_bytes v
  have hl' := length_bytes v'
  refine cbcEnc_prefix (hc.enc_len _) m _ _ _ _ _ (iv_len ..) ?_ ?_ (by omega) (by omega) ?_
  · rw [List.length_append, hl, padding_len]; omega
  · rw [List.length_append, hl', padding_len]; omega
  · rw [List.take_append_of_le_length (by omega), List.take_append_of_le_length (by omega), heq]

/-- C80. Encryption is deterministic and injective: equal ciphertexts iff equal plaintexts. -/
theorem C80_injective (c : Crypto) (hc : c.Lawful) (iv key : List UInt8) (extra extra' : Nat) (h h' : Heap) (s s' : Slice)
    (v : Valid h s) (v' : Valid h' s') :
    bytes (encrypterCbc c (newAes c iv key) extra h s).1 (encrypterCbc c (newAes c iv key) extra h s).2 =
    bytes (encrypterCbc c (newAes c iv key) extra' h' s').1 (encrypterCbc c (newAes c iv key) extra' h' s').2 ↔
    bytes h s = bytes h' s' := by
  constructor
  · intro he
    have ve := (encrypter_spec hc iv key extra v).1
    obtain ⟨h1, p1, d1, b1⟩ := C35_roundtrip c hc iv key extra h s v _ _ ve rfl
    obtain ⟨h2, p2, d2, b2⟩ := C35_roundtrip c hc iv key extra' h' s' v' _ _ ve he
    rw [d1] at d2
    simp only [Result.ok.injEq, Prod.mk.injEq] at d2
    rw [← b1, ← b2, d2.1, d2.2]
  · intro he
    obtain ⟨_, _, be⟩ := encrypter_spec hc iv key extra v
    obtain ⟨_, _, be'⟩ := encrypter_spec hc iv key extra' v'
    have : s.len = s'.len := by rw [← length_bytes v, ← length_bytes v', he]
    rw [be, be', he, this]

/-! ### Concrete cases -/

/-- Encrypting 3 bytes with spare capacity 5 (a new array is made) and decrypting again. -/
example : (match aesDecrypter xorCrypto (aesEncrypter xorCrypto 2 ⟨[[1, 2, 3, 0, 0, 0, 0, 0]]⟩ ⟨0, 0, 3, 8⟩ [5]).1
    (aesEncrypter xorCrypto 2 ⟨[[1, 2, 3, 0, 0, 0, 0, 0]]⟩ ⟨0, 0, 3, 8⟩ [5]).2 [5] with
    | .ok (h, p) => bytes h p
    | .panic => []) = [1, 2, 3] := by decide +kernel
/-- A last byte larger than the length panics. -/
example : decrypterCbc xorCrypto (newAes xorCrypto [] []) ⟨[List.replicate 16 200]⟩ ⟨0, 0, 16, 16⟩ = .panic := by decide +kernel
/-- A last byte 0 is accepted and removes nothing. -/
example : (match decrypterCbc xorCrypto (newAes xorCrypto [] []) ⟨[List.replicate 16 0]⟩ ⟨0, 0, 16, 16⟩ with
    | .ok (h, p) => (bytes h p).length | .panic => 99) = 16 := by decide +kernel
example : decrypterCbc xorCrypto (newAes xorCrypto [] []) ⟨[List.replicate 17 1]⟩ ⟨0, 0, 17, 17⟩ = .panic := by decide +kernel

end Gofer.Props.Aes
