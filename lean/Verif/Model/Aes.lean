import Verif.Model.GoSlice

/-!
# Model of `keystore/aes.go`

AES, MD5 and SHA-256 are parameters (`Crypto`); of AES the proofs use only that decryption of a
16-byte block undoes encryption with the same key. `crypto/cipher`'s CBC mode (library) is modelled
block by block.
-/
namespace Gofer.Aes
open Gofer.GoSlice

/-- The cryptographic library functions, on byte strings. `aesEnc key` and `aesDec key` work on one
16-byte block. -/
structure Crypto where
  md5 : List UInt8 → List UInt8
  sha256 : List UInt8 → List UInt8
  aesEnc : List UInt8 → List UInt8 → List UInt8
  aesDec : List UInt8 → List UInt8 → List UInt8

/-- The only law about AES that is used. -/
structure Crypto.Lawful (c : Crypto) : Prop where
  enc_len : ∀ key b, b.length = 16 → (c.aesEnc key b).length = 16
  dec_len : ∀ key b, b.length = 16 → (c.aesDec key b).length = 16
  dec_enc : ∀ key b, b.length = 16 → c.aesDec key (c.aesEnc key b) = b

/-- A Go run-time panic or the result. -/
inductive Result (α : Type) where
  | panic
  | ok (a : α)
deriving DecidableEq

/-- `copy(dst[:], src)` into a zeroed array of `n` bytes. -/
def copyInto (n : Nat) (src : List UInt8) : List UInt8 := src.take n ++ List.replicate (n - src.length) 0

/-- `Aes` (keystore/aes.go:16-21). -/
structure Aes where
  commonKey256 : List UInt8
  commonIV : List UInt8

/-- `NewAes` (keystore/aes.go:23-28). -/
def newAes (c : Crypto) (iv key : List UInt8) : Aes :=
  ⟨copyInto 32 (c.sha256 key), copyInto 16 (c.md5 iv)⟩

/-- Bytewise exclusive or. -/
def xor (a b : List UInt8) : List UInt8 := List.zipWith (· ^^^ ·) a b

/-- `cbcEncrypter.CryptBlocks` on `n` blocks (library). -/
def cbcEnc (enc : List UInt8 → List UInt8) : Nat → List UInt8 → List UInt8 → List UInt8
  | 0, _, _ => []
  | n + 1, iv, d =>
    let b := enc (xor (d.take 16) iv)
    b ++ cbcEnc enc n b (d.drop 16)

/-- `cbcDecrypter.CryptBlocks` on `n` blocks (library). -/
def cbcDec (dec : List UInt8 → List UInt8) : Nat → List UInt8 → List UInt8 → List UInt8
  | 0, _, _ => []
  | n + 1, iv, d => xor (dec (d.take 16)) iv ++ cbcDec dec n (d.take 16) (d.drop 16)

/-- The padding appended by `EncrypterCbc` (keystore/aes.go:33). -/
def padding (len : Nat) : List UInt8 := List.replicate (16 - len % 16) (16 - len % 16).toUInt8

/-- `EncrypterCbc` (keystore/aes.go:30-41). `aes.NewCipher` never fails on a 32-byte key, so the error
is always nil. `extra` is the spare capacity the runtime gives a grown slice. -/
def encrypterCbc (c : Crypto) (a : Aes) (extra : Nat) (h : Heap) (src : Slice) : Heap × Slice :=
  let bs := padding src.len
  let (h, r) := append h src bs extra
  (fill h r (cbcEnc (c.aesEnc a.commonKey256) (r.len / 16) a.commonIV (bytes h r)), r)

/-- `DecrypterCbc` (keystore/aes.go:43-53). `CryptBlocks` panics unless the length is a multiple of 16;
indexing the last byte panics on an empty slice; reslicing panics on a negative bound. The error is
always nil. -/
def decrypterCbc (c : Crypto) (a : Aes) (h : Heap) (bs : Slice) : Result (Heap × Slice) :=
  let (h, r) := make h bs.len
  if bs.len % 16 ≠ 0 then .panic
  else
    let h := fill h r (cbcDec (c.aesDec a.commonKey256) (bs.len / 16) a.commonIV (bytes h bs))
    match (bytes h r).getLast? with
    | none => .panic
    | some last => if last.toNat > r.len then .panic else .ok (h, { r with len := r.len - last.toNat })

/-- `AesEncrypter` (keystore/aes.go:55-57). -/
def aesEncrypter (c : Crypto) (extra : Nat) (h : Heap) (src : Slice) (key : List UInt8) : Heap × Slice :=
  encrypterCbc c (newAes c key key) extra h src

/-- `AesDecrypter` (keystore/aes.go:59-61). -/
def aesDecrypter (c : Crypto) (h : Heap) (bs : Slice) (key : List UInt8) : Result (Heap × Slice) :=
  decrypterCbc c (newAes c key key) h bs

end Gofer.Aes
