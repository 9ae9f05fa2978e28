import Verif.Proof.AesBlock
import Verif.Proof.Digest
import Verif.Props.Aes

/-! # The AES helpers with the real AES, MD5 and SHA-256: properties C35, C206 -/
namespace Gofer.Props.AesReal
open Gofer.Aes Gofer.GoSlice Gofer.AesBlock Gofer.Digest

/-- The bytes of an ASCII text. -/
def text (s : String) : List UInt8 := s.toList.map fun c => c.toNat.toUInt8

/-- FIPS 197, C.3. -/
example : encrypt ((List.range 32).map (·.toUInt8)) [0x00, 0x11, 0x22, 0x33, 0x44, 0x55, 0x66, 0x77, 0x88, 0x99, 0xaa, 0xbb, 0xcc, 0xdd, 0xee, 0xff] =
    [0x8e, 0xa2, 0xb7, 0xca, 0x51, 0x67, 0x45, 0xbf, 0xea, 0xfc, 0x49, 0x90, 0x4b, 0x49, 0x60, 0x89] := by decide +kernel

/-- C35. The law about AES that the other theorems on these helpers assume holds for AES with 256-bit keys. -/
theorem C35_aes_lawful : real.Lawful :=
  ⟨fun key b _ => encrypt_len key b, fun key b _ => decrypt_len key b, fun key _ h => decrypt_encrypt key h⟩

/-- C35. So `AesDecrypter` undoes `AesEncrypter`. -/
theorem C35_real (key : List UInt8) (extra : Nat) (h : Heap) (src : Slice) (v : Valid h src) :
    ∃ h'' p, aesDecrypter real (aesEncrypter real extra h src key).1 (aesEncrypter real extra h src key).2 key = .ok (h'', p) ∧
      bytes h'' p = bytes h src :=
  Props.Aes.C35_aesEncrypter real C35_aes_lawful key extra h src v

/-- "hello gofer" with the password "secret". -/
def hello : List UInt8 := [89, 173, 111, 71, 17, 7, 78, 153, 252, 12, 150, 26, 168, 113, 74, 203]

/-- The ciphertext is that of `openssl enc -aes-256-cbc` with the SHA-256 of the password as key and its MD5 as initialisation
vector. -/
theorem C206_hello : (let r := aesEncrypter real 0 ⟨[text "hello gofer"]⟩ ⟨0, 0, 11, 11⟩ (text "secret"); bytes r.1 r.2) = hello := by decide +kernel

/-- C206. `DecrypterCbc` gives some text, and no error, for every ciphertext of at least 256 bytes (and whole blocks), whatever the
password. -/
theorem C206_silent (c : Crypto) (hc : c.Lawful) (iv key : List UInt8) (h : Heap) (s : Slice) (v : Valid h s) (h16 : s.len % 16 = 0)
    (hl : 256 ≤ s.len) : ∃ h' r, decrypterCbc c (newAes c iv key) h s = .ok (h', r) ∧ s.len - 255 ≤ (bytes h' r).length := by
  obtain ⟨h1, h2⟩ := Props.Aes.C36_panic_iff_partial c hc iv key h s v
  have hp : decrypterCbc c (newAes c iv key) h s ≠ .panic := by
    intro e
    rcases h1.1 e with h0 | h0 | ⟨last, _, h0⟩
    · omega
    · exact h0 h16
    · have := last.toNat_lt
      omega
  obtain ⟨h3, r3, vr, lr, br, hd, _⟩ := decrypter_spec hc iv key v h16
  cases e : decrypterCbc c (newAes c iv key) h s with
  | panic => exact absurd e hp
  | ok p =>
    obtain ⟨h', r⟩ := p
    obtain ⟨last, _, hb⟩ := h2 h' r e
    refine ⟨h', r, rfl, ?_⟩
    rw [hb, ← br, List.length_take, length_bytes vr, lr]
    have := last.toNat_lt
    omega

/-- C206. So a wrong password is not noticed: for every text of at least 240 bytes, and any two passwords, what was encrypted with
the first is decrypted without an error with the second. -/
theorem C206_wrong_password (key key' : List UInt8) (extra : Nat) (h : Heap) (src : Slice) (v : Valid h src) (hl : 240 ≤ src.len) :
    ∃ h' p, aesDecrypter real (aesEncrypter real extra h src key).1 (aesEncrypter real extra h src key).2 key' = .ok (h', p) := by
  obtain ⟨ve, le, _⟩ := encrypter_spec C35_aes_lawful key key extra v
  obtain ⟨h', r, e, _⟩ := C206_silent real C35_aes_lawful key' key' _ _ ve (by rw [le]; omega) (by rw [le]; omega)
  exact ⟨h', r, e⟩

/-- C206, the claim: decrypting with another password does not give a text. -/
def C206_claim : Prop := ∀ (key key' : List UInt8) (extra : Nat) (h : Heap) (src : Slice), Valid h src → key ≠ key' →
  ∀ p, aesDecrypter real (aesEncrypter real extra h src key).1 (aesEncrypter real extra h src key).2 key' ≠ .ok p

theorem C206_claim_false : ¬ C206_claim := by
  intro hf
  obtain ⟨h', p, e⟩ := C206_wrong_password [1] [2] 0 ⟨[List.replicate 240 0]⟩ ⟨0, 0, 240, 240⟩
    ⟨by decide, by decide +kernel, by decide⟩ (by decide)
  exact hf [1] [2] 0 ⟨[List.replicate 240 0]⟩ ⟨0, 0, 240, 240⟩ ⟨by decide, by decide +kernel, by decide⟩ (by decide) _ e

/-- The text that was got, none if there was a panic. -/
def got : Result (Heap × Slice) → Option (List UInt8)
  | .ok p => some (bytes p.1 p.2)
  | .panic => none

/-- C206. Short texts: with the password "k39" the ciphertext of "hello gofer" becomes seven bytes of rubbish, with "k0" there is a
panic. -/
theorem C206_short : got (aesDecrypter real ⟨[hello]⟩ ⟨0, 0, 16, 16⟩ (text "secret")) = some (text "hello gofer") ∧
    got (aesDecrypter real ⟨[hello]⟩ ⟨0, 0, 16, 16⟩ (text "k39")) = some [232, 242, 134, 188, 208, 119, 89] ∧
    got (aesDecrypter real ⟨[hello]⟩ ⟨0, 0, 16, 16⟩ (text "k0")) = none := by
  decide +kernel

end Gofer.Props.AesReal
