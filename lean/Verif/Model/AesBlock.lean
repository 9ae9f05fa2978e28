import Verif.Model.Aes
import Verif.Model.Digest

/-!
# AES with 256-bit keys (library `crypto/aes`)

The block cipher of FIPS 197, which `aes.NewCipher` and `CryptBlocks` (keystore/aes.go:31, 36, 44, 47) use. The bytes of a block
are kept in the order of the input: byte `4 * c + r` is row `r` of column `c`. The library works with merged tables or with
instructions of the processor; a known answer of FIPS 197 is checked in `Props/AesReal`.
-/
namespace Gofer.AesBlock

/-- FIPS 197, figure 7. -/
def sbox : List UInt8 :=
  [0x63, 0x7c, 0x77, 0x7b, 0xf2, 0x6b, 0x6f, 0xc5, 0x30, 0x01, 0x67, 0x2b, 0xfe, 0xd7, 0xab, 0x76,
   0xca, 0x82, 0xc9, 0x7d, 0xfa, 0x59, 0x47, 0xf0, 0xad, 0xd4, 0xa2, 0xaf, 0x9c, 0xa4, 0x72, 0xc0,
   0xb7, 0xfd, 0x93, 0x26, 0x36, 0x3f, 0xf7, 0xcc, 0x34, 0xa5, 0xe5, 0xf1, 0x71, 0xd8, 0x31, 0x15,
   0x04, 0xc7, 0x23, 0xc3, 0x18, 0x96, 0x05, 0x9a, 0x07, 0x12, 0x80, 0xe2, 0xeb, 0x27, 0xb2, 0x75,
   0x09, 0x83, 0x2c, 0x1a, 0x1b, 0x6e, 0x5a, 0xa0, 0x52, 0x3b, 0xd6, 0xb3, 0x29, 0xe3, 0x2f, 0x84,
   0x53, 0xd1, 0x00, 0xed, 0x20, 0xfc, 0xb1, 0x5b, 0x6a, 0xcb, 0xbe, 0x39, 0x4a, 0x4c, 0x58, 0xcf,
   0xd0, 0xef, 0xaa, 0xfb, 0x43, 0x4d, 0x33, 0x85, 0x45, 0xf9, 0x02, 0x7f, 0x50, 0x3c, 0x9f, 0xa8,
   0x51, 0xa3, 0x40, 0x8f, 0x92, 0x9d, 0x38, 0xf5, 0xbc, 0xb6, 0xda, 0x21, 0x10, 0xff, 0xf3, 0xd2,
   0xcd, 0x0c, 0x13, 0xec, 0x5f, 0x97, 0x44, 0x17, 0xc4, 0xa7, 0x7e, 0x3d, 0x64, 0x5d, 0x19, 0x73,
   0x60, 0x81, 0x4f, 0xdc, 0x22, 0x2a, 0x90, 0x88, 0x46, 0xee, 0xb8, 0x14, 0xde, 0x5e, 0x0b, 0xdb,
   0xe0, 0x32, 0x3a, 0x0a, 0x49, 0x06, 0x24, 0x5c, 0xc2, 0xd3, 0xac, 0x62, 0x91, 0x95, 0xe4, 0x79,
   0xe7, 0xc8, 0x37, 0x6d, 0x8d, 0xd5, 0x4e, 0xa9, 0x6c, 0x56, 0xf4, 0xea, 0x65, 0x7a, 0xae, 0x08,
   0xba, 0x78, 0x25, 0x2e, 0x1c, 0xa6, 0xb4, 0xc6, 0xe8, 0xdd, 0x74, 0x1f, 0x4b, 0xbd, 0x8b, 0x8a,
   0x70, 0x3e, 0xb5, 0x66, 0x48, 0x03, 0xf6, 0x0e, 0x61, 0x35, 0x57, 0xb9, 0x86, 0xc1, 0x1d, 0x9e,
   0xe1, 0xf8, 0x98, 0x11, 0x69, 0xd9, 0x8e, 0x94, 0x9b, 0x1e, 0x87, 0xe9, 0xce, 0x55, 0x28, 0xdf,
   0x8c, 0xa1, 0x89, 0x0d, 0xbf, 0xe6, 0x42, 0x68, 0x41, 0x99, 0x2d, 0x0f, 0xb0, 0x54, 0xbb, 0x16]

/-- FIPS 197, figure 14. -/
def invSbox : List UInt8 :=
  [0x52, 0x09, 0x6a, 0xd5, 0x30, 0x36, 0xa5, 0x38, 0xbf, 0x40, 0xa3, 0x9e, 0x81, 0xf3, 0xd7, 0xfb,
   0x7c, 0xe3, 0x39, 0x82, 0x9b, 0x2f, 0xff, 0x87, 0x34, 0x8e, 0x43, 0x44, 0xc4, 0xde, 0xe9, 0xcb,
   0x54, 0x7b, 0x94, 0x32, 0xa6, 0xc2, 0x23, 0x3d, 0xee, 0x4c, 0x95, 0x0b, 0x42, 0xfa, 0xc3, 0x4e,
   0x08, 0x2e, 0xa1, 0x66, 0x28, 0xd9, 0x24, 0xb2, 0x76, 0x5b, 0xa2, 0x49, 0x6d, 0x8b, 0xd1, 0x25,
   0x72, 0xf8, 0xf6, 0x64, 0x86, 0x68, 0x98, 0x16, 0xd4, 0xa4, 0x5c, 0xcc, 0x5d, 0x65, 0xb6, 0x92,
   0x6c, 0x70, 0x48, 0x50, 0xfd, 0xed, 0xb9, 0xda, 0x5e, 0x15, 0x46, 0x57, 0xa7, 0x8d, 0x9d, 0x84,
   0x90, 0xd8, 0xab, 0x00, 0x8c, 0xbc, 0xd3, 0x0a, 0xf7, 0xe4, 0x58, 0x05, 0xb8, 0xb3, 0x45, 0x06,
   0xd0, 0x2c, 0x1e, 0x8f, 0xca, 0x3f, 0x0f, 0x02, 0xc1, 0xaf, 0xbd, 0x03, 0x01, 0x13, 0x8a, 0x6b,
   0x3a, 0x91, 0x11, 0x41, 0x4f, 0x67, 0xdc, 0xea, 0x97, 0xf2, 0xcf, 0xce, 0xf0, 0xb4, 0xe6, 0x73,
   0x96, 0xac, 0x74, 0x22, 0xe7, 0xad, 0x35, 0x85, 0xe2, 0xf9, 0x37, 0xe8, 0x1c, 0x75, 0xdf, 0x6e,
   0x47, 0xf1, 0x1a, 0x71, 0x1d, 0x29, 0xc5, 0x89, 0x6f, 0xb7, 0x62, 0x0e, 0xaa, 0x18, 0xbe, 0x1b,
   0xfc, 0x56, 0x3e, 0x4b, 0xc6, 0xd2, 0x79, 0x20, 0x9a, 0xdb, 0xc0, 0xfe, 0x78, 0xcd, 0x5a, 0xf4,
   0x1f, 0xdd, 0xa8, 0x33, 0x88, 0x07, 0xc7, 0x31, 0xb1, 0x12, 0x10, 0x59, 0x27, 0x80, 0xec, 0x5f,
   0x60, 0x51, 0x7f, 0xa9, 0x19, 0xb5, 0x4a, 0x0d, 0x2d, 0xe5, 0x7a, 0x9f, 0x93, 0xc9, 0x9c, 0xef,
   0xa0, 0xe0, 0x3b, 0x4d, 0xae, 0x2a, 0xf5, 0xb0, 0xc8, 0xeb, 0xbb, 0x3c, 0x83, 0x53, 0x99, 0x61,
   0x17, 0x2b, 0x04, 0x7e, 0xba, 0x77, 0xd6, 0x26, 0xe1, 0x69, 0x14, 0x63, 0x55, 0x21, 0x0c, 0x7d]

/-- `SubBytes` (FIPS 197, 5.1.1). -/
def subBytes (s : List UInt8) : List UInt8 := s.map fun b => sbox.getD b.toNat 0

/-- `InvSubBytes` (FIPS 197, 5.3.2). -/
def invSubBytes (s : List UInt8) : List UInt8 := s.map fun b => invSbox.getD b.toNat 0

/-- `ShiftRows` (FIPS 197, 5.1.2): row `r` moves `r` columns to the left. -/
def shiftRows (s : List UInt8) : List UInt8 := (List.range 16).map fun i => s.getD ((i + 4 * (i % 4)) % 16) 0

/-- `InvShiftRows` (FIPS 197, 5.3.1). -/
def invShiftRows (s : List UInt8) : List UInt8 := (List.range 16).map fun i => s.getD ((i + 12 * (i % 4)) % 16) 0

/-- `xtime` (FIPS 197, 4.2.1): multiplication by x. -/
def xtime (b : UInt8) : UInt8 := (b <<< 1) ^^^ (if b &&& 0x80 = 0 then 0 else 0x1b)

/-- Multiplication by 3, 9, 11, 13 and 14. -/
def mul3 (b : UInt8) : UInt8 := xtime b ^^^ b
def mul9 (b : UInt8) : UInt8 := xtime (xtime (xtime b)) ^^^ b
def mul11 (b : UInt8) : UInt8 := xtime (xtime (xtime b)) ^^^ xtime b ^^^ b
def mul13 (b : UInt8) : UInt8 := xtime (xtime (xtime b)) ^^^ xtime (xtime b) ^^^ b
def mul14 (b : UInt8) : UInt8 := xtime (xtime (xtime b)) ^^^ xtime (xtime b) ^^^ xtime b

/-- `MixColumns` (FIPS 197, 5.1.3). -/
def mixColumns : List UInt8 → List UInt8
  | a :: b :: c :: d :: rest =>
    (xtime a ^^^ mul3 b ^^^ c ^^^ d) :: (a ^^^ xtime b ^^^ mul3 c ^^^ d) :: (a ^^^ b ^^^ xtime c ^^^ mul3 d) ::
      (mul3 a ^^^ b ^^^ c ^^^ xtime d) :: mixColumns rest
  | _ => []

/-- `InvMixColumns` (FIPS 197, 5.3.3). -/
def invMixColumns : List UInt8 → List UInt8
  | a :: b :: c :: d :: rest =>
    (mul14 a ^^^ mul11 b ^^^ mul13 c ^^^ mul9 d) :: (mul9 a ^^^ mul14 b ^^^ mul11 c ^^^ mul13 d) ::
      (mul13 a ^^^ mul9 b ^^^ mul14 c ^^^ mul11 d) :: (mul11 a ^^^ mul13 b ^^^ mul9 c ^^^ mul14 d) :: invMixColumns rest
  | _ => []

/-- `AddRoundKey` (FIPS 197, 5.1.4) with the key of round `r`. -/
def addRoundKey (w : List UInt8) (r : Nat) (s : List UInt8) : List UInt8 :=
  (List.range 16).map fun i => s.getD i 0 ^^^ w.getD (16 * r + i) 0

/-- The word `i` of the key schedule from the one before and the one eight before (FIPS 197, figure 11). -/
def keyWord (i : Nat) (prev back : List UInt8) : List UInt8 :=
  let t :=
    if i % 8 = 0 then
      let u := subBytes (prev.drop 1 ++ prev.take 1)
      Aes.xor u [(1 : UInt8) <<< (i / 8 - 1).toUInt8, 0, 0, 0]
    else if i % 8 = 4 then subBytes prev
    else prev
  Aes.xor back t

/-- The key schedule (FIPS 197, 5.2): sixty words as 240 bytes. -/
def expand (key : List UInt8) : List UInt8 :=
  (List.range 52).foldl (fun w j =>
    let i := j + 8
    w ++ keyWord i ((w.drop (4 * (i - 1))).take 4) ((w.drop (4 * (i - 8))).take 4)) key

/-- A round of the cipher (FIPS 197, figure 5). -/
def round (w : List UInt8) (s : List UInt8) (r : Nat) : List UInt8 := addRoundKey w r (mixColumns (shiftRows (subBytes s)))

/-- `Cipher` (FIPS 197, figure 5) with 14 rounds. -/
def encrypt (key b : List UInt8) : List UInt8 :=
  let w := expand key
  let s := (List.range 13).foldl (fun s r => round w s (r + 1)) (addRoundKey w 0 b)
  addRoundKey w 14 (shiftRows (subBytes s))

/-- A round of the inverse cipher (FIPS 197, figure 12). -/
def invRound (w : List UInt8) (s : List UInt8) (r : Nat) : List UInt8 :=
  invMixColumns (addRoundKey w r (invSubBytes (invShiftRows s)))

/-- `InvCipher` (FIPS 197, figure 12) with 14 rounds. -/
def decrypt (key b : List UInt8) : List UInt8 :=
  let w := expand key
  let s := (List.range 13).foldl (fun s r => invRound w s (13 - r)) (addRoundKey w 14 b)
  addRoundKey w 0 (invSubBytes (invShiftRows s))

/-- The library functions that `keystore/aes.go` uses. -/
def real : Aes.Crypto := ⟨Digest.md5Sum, Digest.sha256Sum, encrypt, decrypt⟩

end Gofer.AesBlock
