import Verif.Proof.Digest
import Verif.Model.Aes

/-! # Digests: properties C203–C205 -/
namespace Gofer.Props.Digest
open Gofer.Digest

/-- The bytes of an ASCII text. -/
def text (s : String) : List UInt8 := s.toList.map fun c => c.toNat.toUInt8

/-- RFC 1321, A.5: "". -/
example : md5Sum (text "") =
    [0xd4, 0x1d, 0x8c, 0xd9, 0x8f, 0x00, 0xb2, 0x04, 0xe9, 0x80, 0x09, 0x98, 0xec, 0xf8, 0x42, 0x7e] := by decide +kernel

/-- RFC 1321, A.5: "abc". -/
example : md5Sum (text "abc") =
    [0x90, 0x01, 0x50, 0x98, 0x3c, 0xd2, 0x4f, 0xb0, 0xd6, 0x96, 0x3f, 0x7d, 0x28, 0xe1, 0x7f, 0x72] := by decide +kernel

/-- RFC 1321, A.5: "abcdefghijklmnopqrstuvwxyz". -/
example : md5Sum (text "abcdefghijklmnopqrstuvwxyz") =
    [0xc3, 0xfc, 0xd3, 0xd7, 0x61, 0x92, 0xe4, 0x00, 0x7d, 0xfb, 0x49, 0x6c, 0xca, 0x67, 0xe1, 0x3b] := by decide +kernel

/-- RFC 1321, A.5: "ABCDEFGHIJKLMNOPQRSTUVWXYZabcdefghijklmnopqrstuvwxyz0123456789". -/
example : md5Sum (text "ABCDEFGHIJKLMNOPQRSTUVWXYZabcdefghijklmnopqrstuvwxyz0123456789") =
    [0xd1, 0x74, 0xab, 0x98, 0xd2, 0x77, 0xd9, 0xf5, 0xa5, 0x61, 0x1c, 0x2c, 0x9f, 0x41, 0x9d, 0x9f] := by decide +kernel

/-- FIPS 180-2, examples. -/
example : sha1Sum (text "abc") =
    [0xa9, 0x99, 0x3e, 0x36, 0x47, 0x06, 0x81, 0x6a, 0xba, 0x3e, 0x25, 0x71, 0x78, 0x50, 0xc2, 0x6c,
     0x9c, 0xd0, 0xd8, 0x9d] := by decide +kernel

/-- FIPS 180-2, examples. -/
example : sha1Sum (text "abcdbcdecdefdefgefghfghighijhijkijkljklmklmnlmnomnopnopq") =
    [0x84, 0x98, 0x3e, 0x44, 0x1c, 0x3b, 0xd2, 0x6e, 0xba, 0xae, 0x4a, 0xa1, 0xf9, 0x51, 0x29, 0xe5,
     0xe5, 0x46, 0x70, 0xf1] := by decide +kernel

/-- FIPS 180-2, examples. -/
example : sha256Sum (text "abc") =
    [0xba, 0x78, 0x16, 0xbf, 0x8f, 0x01, 0xcf, 0xea, 0x41, 0x41, 0x40, 0xde, 0x5d, 0xae, 0x22, 0x23,
     0xb0, 0x03, 0x61, 0xa3, 0x96, 0x17, 0x7a, 0x9c, 0xb4, 0x10, 0xff, 0x61, 0xf2, 0x00, 0x15, 0xad] := by decide +kernel

/-- FIPS 180-2, examples. -/
example : sha256Sum (text "abcdbcdecdefdefgefghfghighijhijkijkljklmklmnlmnomnopnopq") =
    [0x24, 0x8d, 0x6a, 0x61, 0xd2, 0x06, 0x38, 0xb8, 0xe5, 0xc0, 0x26, 0x93, 0x0c, 0x3e, 0x60, 0x39,
     0xa3, 0x3c, 0xe4, 0x59, 0x64, 0xff, 0x21, 0x67, 0xf6, 0xec, 0xed, 0xd4, 0x19, 0xdb, 0x06, 0xc1] := by decide +kernel

/-- The sixteen digits of upper-case hexadecimal notation. -/
def digits : List UInt8 := text "0123456789ABCDEF"

/-- Two digits for every byte, the high one first. -/
def upperHex (bs : List UInt8) : List UInt8 := bs.flatMap fun b => [digits.getD (b.toNat / 16) 0, digits.getD (b.toNat % 16) 0]

theorem toUpper_hex (bs : List UInt8) : toUpper (hex bs) = upperHex bs := by
  have h : ∀ b : UInt8, toUpper [hexDigit (b.toNat / 16), hexDigit (b.toNat % 16)] = [digits.getD (b.toNat / 16) 0, digits.getD (b.toNat % 16) 0] :=
    all8 (P := fun b => toUpper [hexDigit (b.toNat / 16), hexDigit (b.toNat % 16)] = [digits.getD (b.toNat / 16) 0, digits.getD (b.toNat % 16) 0])
      (by decide +kernel)
  induction bs with
  | nil => rfl
  | cons b r ih =>
    have e : toUpper (hex (b :: r)) = toUpper [hexDigit (b.toNat / 16), hexDigit (b.toNat % 16)] ++ toUpper (hex r) := by
      simp [toUpper, hex]
    rw [e, h, ih]
    rfl

theorem upperHex_len (bs : List UInt8) : (upperHex bs).length = 2 * bs.length := by
  induction bs with
  | nil => rfl
  | cons b r ih =>
    have e : upperHex (b :: r) = [digits.getD (b.toNat / 16) 0, digits.getD (b.toNat % 16) 0] ++ upperHex r := rfl
    rw [e, List.length_append, ih, List.length_cons]
    simp
    omega

theorem upperHex_digits (bs : List UInt8) : ∀ c ∈ upperHex bs, c ∈ digits := by
  have h : ∀ b : UInt8, digits.getD (b.toNat / 16) 0 ∈ digits ∧ digits.getD (b.toNat % 16) 0 ∈ digits :=
    all8 (P := fun b => digits.getD (b.toNat / 16) 0 ∈ digits ∧ digits.getD (b.toNat % 16) 0 ∈ digits) (by decide +kernel)
  intro c hc
  obtain ⟨b, _, hc⟩ := List.mem_flatMap.1 hc
  simp only [List.mem_cons, List.not_mem_nil, or_false] at hc
  rcases hc with rfl | rfl
  · exact (h b).1
  · exact (h b).2

theorem upperHex_inj : ∀ {a b : List UInt8}, upperHex a = upperHex b → a = b := by
  have back : ∀ b : UInt8, UInt8.ofNat (digits.idxOf (digits.getD (b.toNat / 16) 0) * 16 + digits.idxOf (digits.getD (b.toNat % 16) 0)) = b :=
    all8 (P := fun b => UInt8.ofNat (digits.idxOf (digits.getD (b.toNat / 16) 0) * 16 + digits.idxOf (digits.getD (b.toNat % 16) 0)) = b)
      (by decide +kernel)
  intro a
  induction a with
  | nil =>
    intro b h
    cases b with
    | nil => rfl
    | cons => simp [upperHex] at h
  | cons x r ih =>
    intro b h
    cases b with
    | nil => simp [upperHex] at h
    | cons y t =>
      have e : ∀ (z : UInt8) (l : List UInt8), upperHex (z :: l) = digits.getD (z.toNat / 16) 0 :: digits.getD (z.toNat % 16) 0 :: upperHex l :=
        fun _ _ => rfl
      rw [e, e] at h
      simp only [List.cons.injEq] at h
      have hx : x = y := by rw [← back x, ← back y, h.1, h.2.1]
      rw [hx, ih h.2.2]

/-- C203. `MD5` returns 16 bytes, `SHA1` 20; `Md5Str` and `Sha1Str` are the two upper-case hexadecimal digits of each of
these bytes, in order. -/
theorem C203_text (s : List UInt8) : (md5Sum s).length = 16 ∧ (sha1Sum s).length = 20 ∧ md5Str s = upperHex (md5Sum s) ∧ sha1Str s = upperHex (sha1Sum s) :=
  ⟨md5Sum_len s, sha1Sum_len s, toUpper_hex _, toUpper_hex _⟩

/-- C203. So `Md5Str` has 32 and `Sha1Str` 40 characters, all of them digits or capital letters from A to F, and the text
determines the digest. -/
theorem C203_format (s t : List UInt8) : (md5Str s).length = 32 ∧ (sha1Str s).length = 40 ∧ (∀ c ∈ md5Str s ++ sha1Str s, c ∈ digits) ∧
    (md5Str s = md5Str t ↔ md5Sum s = md5Sum t) ∧ (sha1Str s = sha1Str t ↔ sha1Sum s = sha1Sum t) := by
  have hm : ∀ s, md5Str s = upperHex (md5Sum s) := fun s => toUpper_hex _
  have hs : ∀ s, sha1Str s = upperHex (sha1Sum s) := fun s => toUpper_hex _
  refine ⟨?_, ?_, ?_, ?_, ?_⟩
  · rw [hm, upperHex_len, md5Sum_len]
  · rw [hs, upperHex_len, sha1Sum_len]
  · intro c hc
    rw [hm, hs, List.mem_append] at hc
    exact hc.elim (upperHex_digits _ c) (upperHex_digits _ c)
  · rw [hm, hm]
    exact ⟨upperHex_inj, fun h => by rw [h]⟩
  · rw [hs, hs]
    exact ⟨upperHex_inj, fun h => by rw [h]⟩

/-- "abc" as text. -/
example : md5Str (text "abc") = text "900150983CD24FB0D6963F7D28E17F72" ∧
    sha1Str (text "abc") = text "A9993E364706816ABA3E25717850C26C9CD0D89D" := by decide +kernel

/-- Two blocks of 64 bytes with the same MD5 state (M. Stevens, Single-block collision attack on MD5, 2012). -/
def block1 : List UInt8 :=
  [0x4d, 0xc9, 0x68, 0xff, 0x0e, 0xe3, 0x5c, 0x20, 0x95, 0x72, 0xd4, 0x77, 0x7b, 0x72, 0x15, 0x87,
   0xd3, 0x6f, 0xa7, 0xb2, 0x1b, 0xdc, 0x56, 0xb7, 0x4a, 0x3d, 0xc0, 0x78, 0x3e, 0x7b, 0x95, 0x18,
   0xaf, 0xbf, 0xa2, 0x00, 0xa8, 0x28, 0x4b, 0xf3, 0x6e, 0x8e, 0x4b, 0x55, 0xb3, 0x5f, 0x42, 0x75,
   0x93, 0xd8, 0x49, 0x67, 0x6d, 0xa0, 0xd1, 0x55, 0x5d, 0x83, 0x60, 0xfb, 0x5f, 0x07, 0xfe, 0xa2]

def block2 : List UInt8 :=
  [0x4d, 0xc9, 0x68, 0xff, 0x0e, 0xe3, 0x5c, 0x20, 0x95, 0x72, 0xd4, 0x77, 0x7b, 0x72, 0x15, 0x87,
   0xd3, 0x6f, 0xa7, 0xb2, 0x1b, 0xdc, 0x56, 0xb7, 0x4a, 0x3d, 0xc0, 0x78, 0x3e, 0x7b, 0x95, 0x18,
   0xaf, 0xbf, 0xa2, 0x02, 0xa8, 0x28, 0x4b, 0xf3, 0x6e, 0x8e, 0x4b, 0x55, 0xb3, 0x5f, 0x42, 0x75,
   0x93, 0xd8, 0x49, 0x67, 0x6d, 0xa0, 0xd1, 0xd5, 0x5d, 0x83, 0x60, 0xfb, 0x5f, 0x07, 0xfe, 0xa2]

theorem blocks : block1.length = 64 ∧ block2.length = 64 ∧ block1 ≠ block2 ∧ md5Block (show S4 from md5.init) block1 = md5Block (show S4 from md5.init) block2 := by decide +kernel

/-- C204, the claim: different inputs have different MD5 digests. -/
def C204_claim : Prop := ∀ a b : List UInt8, md5Sum a = md5Sum b → a = b

/-- C204. Whatever follows them, the two blocks begin different inputs with the same digest. -/
theorem C204_tail (t : List UInt8) : block1 ++ t ≠ block2 ++ t ∧ md5Sum (block1 ++ t) = md5Sum (block2 ++ t) ∧ md5Str (block1 ++ t) = md5Str (block2 ++ t) := by
  obtain ⟨l1, l2, hn, he⟩ := blocks
  have e : md5Sum (block1 ++ t) = md5Sum (block2 ++ t) := by
    apply sum_tail md5 1 l1 l2
    simp only [Hash.absorb]
    rw [List.take_of_length_le (by omega), List.take_of_length_le (by omega)]
    exact he
  refine ⟨fun h => hn (List.append_cancel_right h), e, ?_⟩
  unfold md5Str
  rw [e]

/-- C204. For every length from 64 bytes on there are two inputs of that length with the same digest, and what they end with
is free. -/
theorem C204_lengths (n : Nat) (t : List UInt8) (ht : t.length + 64 ≤ n) :
    ∃ a b, a ≠ b ∧ a.length = n ∧ b.length = n ∧ t <:+ a ∧ t <:+ b ∧ md5Sum a = md5Sum b := by
  obtain ⟨h1, h2, _⟩ := C204_tail (List.replicate (n - 64 - t.length) 0 ++ t)
  refine ⟨_, _, h1, ?_, ?_, ?_, ?_, h2⟩
  · simp [blocks.1]; omega
  · simp [blocks.2.1]; omega
  · exact ⟨block1 ++ List.replicate (n - 64 - t.length) 0, by simp⟩
  · exact ⟨block2 ++ List.replicate (n - 64 - t.length) 0, by simp⟩

theorem C204_claim_false : ¬ C204_claim := fun h => blocks.2.2.1 (by simpa using h _ _ (by simpa using (C204_tail []).2.1))

/-- C204. `NewAes` makes the same cipher from the two strings as `iv`, whatever the key. -/
theorem C204_newAes (c : Aes.Crypto) (hc : c.md5 = md5Sum) (key t : List UInt8) : Aes.newAes c (block1 ++ t) key = Aes.newAes c (block2 ++ t) key := by
  unfold Aes.newAes
  rw [hc, (C204_tail t).2.1]

/-- C204. Any two inputs of the same whole number of blocks with the same digest give rise to as many as there are byte strings:
both can be continued with their padding and anything. -/
theorem C204_spreads (k : Nat) (a b : List UInt8) (ha : a.length = 64 * k) (hb : b.length = 64 * k) (h : md5Sum a = md5Sum b) (t : List UInt8) :
    md5Sum (a ++ pad put64LE (64 * k) ++ t) = md5Sum (b ++ pad put64LE (64 * k) ++ t) := by
  have e1 := sum_extend md5 put64LE_len md5Back_out a t
  have e2 := sum_extend md5 put64LE_len md5Back_out b t
  have hp : md5.put64 = put64LE := rfl
  have hm : ∀ x, md5.sum x = md5Sum x := fun _ => rfl
  rw [hp, hm, hm, ha] at e1
  rw [hp, hm, hm, hb] at e2
  rw [e1, e2, h]

/-- C205, the claim: the digest of a secret followed by a message, of which the digest is known, tells nothing about the digests
of other messages: there is no way (`forge`) to get the digest of the secret followed by a longer message from it. -/
def C205_claim (H : List UInt8 → List UInt8) : Prop :=
  ¬ ∃ (glue : Nat → List UInt8) (forge : List UInt8 → Nat → List UInt8 → List UInt8), ∀ secret msg x : List UInt8,
    H (secret ++ (msg ++ glue (secret.length + msg.length) ++ x)) = forge (H (secret ++ msg)) (secret.length + msg.length) x

/-- The function that continues a digest `d` of `n` bytes with `x`. -/
def continued (h : Hash) (back : List UInt8 → h.S) (d : List UInt8) (n : Nat) (x : List UInt8) : List UInt8 :=
  let p := pad h.put64 (n + (pad h.put64 n).length + x.length)
  h.out (h.absorb ((x ++ p).length / 64) (back d) (x ++ p))

theorem continued_eq (h : Hash) (hp : ∀ v, (h.put64 v).length = 8) {back : List UInt8 → h.S} (hb : ∀ s, back (h.out s) = s) (secret msg x : List UInt8) :
    h.sum (secret ++ (msg ++ pad h.put64 (secret.length + msg.length) ++ x)) = continued h back (h.sum (secret ++ msg)) (secret.length + msg.length) x := by
  have := sum_extend h hp hb (secret ++ msg) x
  simp only [List.length_append, List.append_assoc] at this
  unfold continued
  simp only [List.append_assoc, List.length_append]
  exact this

/-- C205. With `MD5` anyone who knows the digest of the secret followed by a message, and the length, can compute the digest
of the secret followed by this message, a piece of filling that depends on the length only, and anything. -/
theorem C205_md5 (secret msg x : List UInt8) : md5Sum (secret ++ (msg ++ pad put64LE (secret.length + msg.length) ++ x)) =
    continued md5 md5Back (md5Sum (secret ++ msg)) (secret.length + msg.length) x :=
  continued_eq md5 put64LE_len md5Back_out secret msg x

/-- C205. The same with `SHA1`. -/
theorem C205_sha1 (secret msg x : List UInt8) : sha1Sum (secret ++ (msg ++ pad put64BE (secret.length + msg.length) ++ x)) =
    continued sha1 sha1Back (sha1Sum (secret ++ msg)) (secret.length + msg.length) x :=
  continued_eq sha1 put64BE_len sha1Back_out secret msg x

theorem C205_claim_false : ¬ C205_claim md5Sum ∧ ¬ C205_claim sha1Sum :=
  ⟨fun h => h ⟨_, _, C205_md5⟩, fun h => h ⟨_, _, C205_sha1⟩⟩

/-- The digest of "secret" and "user=bob" is known; "&admin=1" is added. -/
example : sha1Sum (text "secretuser=bob") = [0x67, 0x85, 0x8a, 0x06, 0x2d, 0xb1, 0xad, 0xef, 0x31, 0xdc, 0x6a, 0x41, 0x1a, 0x11, 0xe4, 0x5a, 0x5d, 0x58, 0x1c, 0x00] ∧
    continued sha1 sha1Back
      [0x67, 0x85, 0x8a, 0x06, 0x2d, 0xb1, 0xad, 0xef, 0x31, 0xdc, 0x6a, 0x41, 0x1a, 0x11, 0xe4, 0x5a, 0x5d, 0x58, 0x1c, 0x00]
      14 (text "&admin=1") =
        [0x12, 0xbc, 0x88, 0x27, 0xa4, 0x3c, 0x8a, 0x8c, 0xda, 0xf9, 0x39, 0x27, 0x0e, 0x95, 0x35, 0xcd, 0x09, 0x97, 0x7c, 0x8a] ∧
    sha1Sum (text "secretuser=bob" ++ pad put64BE 14 ++ text "&admin=1") =
        [0x12, 0xbc, 0x88, 0x27, 0xa4, 0x3c, 0x8a, 0x8c, 0xda, 0xf9, 0x39, 0x27, 0x0e, 0x95, 0x35, 0xcd, 0x09, 0x97, 0x7c, 0x8a] := by
  decide +kernel

end Gofer.Props.Digest
