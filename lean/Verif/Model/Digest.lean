import Verif.Model.AMap

/-!
# The digests of `util/encode.go` and `keystore/aes.go`

`crypto/md5`, `crypto/sha1` and `crypto/sha256` are library code. They are modelled by the definitions of RFC 1321 and
FIPS 180-4, on whole messages: gofer calls `Write` once and then `Sum`. Known answers are checked in `Props/Digest`.
-/
namespace Gofer.Digest

/-- The padding of a message of `n` bytes (library: `checkSum` of crypto/md5, crypto/sha1, crypto/sha256): a byte 0x80, zeros
up to 8 bytes before the next multiple of 64, then the length in bits as a 64-bit number, `put` being the order of its bytes. -/
def pad (put : UInt64 → List UInt8) (n : Nat) : List UInt8 :=
  0x80 :: List.replicate ((119 - n % 64) % 64) 0 ++ put (n.toUInt64 * 8)

/-- `byteorder.LEPutUint64` (library). -/
def put64LE (v : UInt64) : List UInt8 := (List.range 8).map fun i => (v >>> (8 * i).toUInt64).toUInt8

/-- `byteorder.BEPutUint64` (library). -/
def put64BE (v : UInt64) : List UInt8 := (List.range 8).map fun i => (v >>> (8 * (7 - i)).toUInt64).toUInt8

/-- `byteorder.LEPutUint32` (library). -/
def put32LE (v : UInt32) : List UInt8 := [v.toUInt8, (v >>> 8).toUInt8, (v >>> 16).toUInt8, (v >>> 24).toUInt8]

/-- `byteorder.BEPutUint32` (library). -/
def put32BE (v : UInt32) : List UInt8 := [(v >>> 24).toUInt8, (v >>> 16).toUInt8, (v >>> 8).toUInt8, v.toUInt8]

/-- `byteorder.LEUint32` at byte `i` (library). -/
def get32LE (bs : List UInt8) (i : Nat) : UInt32 :=
  (bs.getD i 0).toUInt32 ||| (bs.getD (i + 1) 0).toUInt32 <<< 8 ||| (bs.getD (i + 2) 0).toUInt32 <<< 16 |||
    (bs.getD (i + 3) 0).toUInt32 <<< 24

/-- `byteorder.BEUint32` at byte `i` (library). -/
def get32BE (bs : List UInt8) (i : Nat) : UInt32 :=
  (bs.getD i 0).toUInt32 <<< 24 ||| (bs.getD (i + 1) 0).toUInt32 <<< 16 ||| (bs.getD (i + 2) 0).toUInt32 <<< 8 |||
    (bs.getD (i + 3) 0).toUInt32

/-- `bits.RotateLeft32` with 0 < k < 32 (library). -/
def rotl (x : UInt32) (k : Nat) : UInt32 := x <<< k.toUInt32 ||| x >>> (32 - k).toUInt32

/-- A digest working on blocks of 64 bytes: the initial state, the function that takes in a block, and how the state and the
length are written. -/
structure Hash where
  S : Type
  init : S
  block : S → List UInt8 → S
  put64 : UInt64 → List UInt8
  out : S → List UInt8

/-- `n` blocks are taken in (library: `block`). -/
def Hash.absorb (h : Hash) : Nat → h.S → List UInt8 → h.S
  | 0, s, _ => s
  | n + 1, s, bs => h.absorb n (h.block s (bs.take 64)) (bs.drop 64)

/-- `New`, `Write(bs)`, `Sum(nil)`. -/
def Hash.sum (h : Hash) (bs : List UInt8) : List UInt8 :=
  let m := bs ++ pad h.put64 bs.length
  h.out (h.absorb (m.length / 64) h.init m)

/-- Four 32-bit words. -/
structure S4 where
  a : UInt32
  b : UInt32
  c : UInt32
  d : UInt32
deriving DecidableEq, Repr

/-- The table of RFC 1321, 3.4. -/
def md5Table : List UInt32 :=
  [0xd76aa478, 0xe8c7b756, 0x242070db, 0xc1bdceee, 0xf57c0faf, 0x4787c62a, 0xa8304613, 0xfd469501,
   0x698098d8, 0x8b44f7af, 0xffff5bb1, 0x895cd7be, 0x6b901122, 0xfd987193, 0xa679438e, 0x49b40821,
   0xf61e2562, 0xc040b340, 0x265e5a51, 0xe9b6c7aa, 0xd62f105d, 0x02441453, 0xd8a1e681, 0xe7d3fbc8,
   0x21e1cde6, 0xc33707d6, 0xf4d50d87, 0x455a14ed, 0xa9e3e905, 0xfcefa3f8, 0x676f02d9, 0x8d2a4c8a,
   0xfffa3942, 0x8771f681, 0x6d9d6122, 0xfde5380c, 0xa4beea44, 0x4bdecfa9, 0xf6bb4b60, 0xbebfbc70,
   0x289b7ec6, 0xeaa127fa, 0xd4ef3085, 0x04881d05, 0xd9d4d039, 0xe6db99e5, 0x1fa27cf8, 0xc4ac5665,
   0xf4292244, 0x432aff97, 0xab9423a7, 0xfc93a039, 0x655b59c3, 0x8f0ccc92, 0xffeff47d, 0x85845dd1,
   0x6fa87e4f, 0xfe2ce6e0, 0xa3014314, 0x4e0811a1, 0xf7537e82, 0xbd3af235, 0x2ad7d2bb, 0xeb86d391]

/-- The rotations of RFC 1321, 3.4. -/
def md5Shift : List Nat := [7, 12, 17, 22, 5, 9, 14, 20, 4, 11, 16, 23, 6, 10, 15, 21]

/-- Step `i` of RFC 1321, 3.4. -/
def md5Step (blk : List UInt8) (s : S4) (i : Nat) : S4 :=
  let (f, g) :=
    if i < 16 then ((s.b &&& s.c) ||| (~~~s.b &&& s.d), i)
    else if i < 32 then ((s.d &&& s.b) ||| (~~~s.d &&& s.c), (5 * i + 1) % 16)
    else if i < 48 then (s.b ^^^ s.c ^^^ s.d, (3 * i + 5) % 16)
    else (s.c ^^^ (s.b ||| ~~~s.d), (7 * i) % 16)
  let x := s.a + f + md5Table.getD i 0 + get32LE blk (4 * g)
  ⟨s.d, s.b + rotl x (md5Shift.getD (i / 16 * 4 + i % 4) 0), s.b, s.c⟩

/-- One block of MD5 (RFC 1321, 3.4). -/
def md5Block (s : S4) (blk : List UInt8) : S4 :=
  let t := (List.range 64).foldl (md5Step blk) s
  ⟨s.a + t.a, s.b + t.b, s.c + t.c, s.d + t.d⟩

/-- MD5 (RFC 1321). -/
def md5 : Hash where
  S := S4
  init := ⟨0x67452301, 0xefcdab89, 0x98badcfe, 0x10325476⟩
  block := md5Block
  put64 := put64LE
  out s := put32LE s.a ++ put32LE s.b ++ put32LE s.c ++ put32LE s.d

/-- Five 32-bit words. -/
structure S5 where
  a : UInt32
  b : UInt32
  c : UInt32
  d : UInt32
  e : UInt32
deriving DecidableEq, Repr

/-- The last sixteen words of the message schedule, the oldest first, are followed by the next one (FIPS 180-4, 6.1.2 step 1). -/
def sha1Next (w : List UInt32) : UInt32 := rotl (w.getD 13 0 ^^^ w.getD 8 0 ^^^ w.getD 2 0 ^^^ w.getD 0 0) 1

/-- Step `i` of FIPS 180-4, 6.1.2, with the window of the message schedule. -/
def sha1Step (p : S5 × List UInt32) (i : Nat) : S5 × List UInt32 :=
  let s := p.1
  let w := p.2
  let (f, k) :=
    if i < 20 then ((s.b &&& s.c) ||| (~~~s.b &&& s.d), 0x5a827999)
    else if i < 40 then (s.b ^^^ s.c ^^^ s.d, 0x6ed9eba1)
    else if i < 60 then ((s.b &&& s.c) ||| (s.b &&& s.d) ||| (s.c &&& s.d), 0x8f1bbcdc)
    else (s.b ^^^ s.c ^^^ s.d, 0xca62c1d6)
  (⟨rotl s.a 5 + f + s.e + k + w.getD 0 0, s.a, rotl s.b 30, s.c, s.d⟩, w.drop 1 ++ [sha1Next w])

/-- One block of SHA-1 (FIPS 180-4, 6.1.2). -/
def sha1Block (s : S5) (blk : List UInt8) : S5 :=
  let t := ((List.range 80).foldl sha1Step (s, (List.range 16).map fun i => get32BE blk (4 * i))).1
  ⟨s.a + t.a, s.b + t.b, s.c + t.c, s.d + t.d, s.e + t.e⟩

/-- SHA-1 (FIPS 180-4). -/
def sha1 : Hash where
  S := S5
  init := ⟨0x67452301, 0xefcdab89, 0x98badcfe, 0x10325476, 0xc3d2e1f0⟩
  block := sha1Block
  put64 := put64BE
  out s := put32BE s.a ++ put32BE s.b ++ put32BE s.c ++ put32BE s.d ++ put32BE s.e

/-- Eight 32-bit words. -/
structure S8 where
  a : UInt32
  b : UInt32
  c : UInt32
  d : UInt32
  e : UInt32
  f : UInt32
  g : UInt32
  h : UInt32
deriving DecidableEq, Repr

/-- The table of FIPS 180-4, 4.2.2. -/
def sha256Table : List UInt32 :=
  [0x428a2f98, 0x71374491, 0xb5c0fbcf, 0xe9b5dba5, 0x3956c25b, 0x59f111f1, 0x923f82a4, 0xab1c5ed5,
   0xd807aa98, 0x12835b01, 0x243185be, 0x550c7dc3, 0x72be5d74, 0x80deb1fe, 0x9bdc06a7, 0xc19bf174,
   0xe49b69c1, 0xefbe4786, 0x0fc19dc6, 0x240ca1cc, 0x2de92c6f, 0x4a7484aa, 0x5cb0a9dc, 0x76f988da,
   0x983e5152, 0xa831c66d, 0xb00327c8, 0xbf597fc7, 0xc6e00bf3, 0xd5a79147, 0x06ca6351, 0x14292967,
   0x27b70a85, 0x2e1b2138, 0x4d2c6dfc, 0x53380d13, 0x650a7354, 0x766a0abb, 0x81c2c92e, 0x92722c85,
   0xa2bfe8a1, 0xa81a664b, 0xc24b8b70, 0xc76c51a3, 0xd192e819, 0xd6990624, 0xf40e3585, 0x106aa070,
   0x19a4c116, 0x1e376c08, 0x2748774c, 0x34b0bcb5, 0x391c0cb3, 0x4ed8aa4a, 0x5b9cca4f, 0x682e6ff3,
   0x748f82ee, 0x78a5636f, 0x84c87814, 0x8cc70208, 0x90befffa, 0xa4506ceb, 0xbef9a3f7, 0xc67178f2]

/-- `ROTR` of FIPS 180-4. -/
def rotr (x : UInt32) (k : Nat) : UInt32 := rotl x (32 - k)

/-- The next word of the message schedule (FIPS 180-4, 6.2.2 step 1). -/
def sha256Next (w : List UInt32) : UInt32 :=
  let x := w.getD 14 0
  let y := w.getD 1 0
  (rotr x 17 ^^^ rotr x 19 ^^^ x >>> 10) + w.getD 9 0 + (rotr y 7 ^^^ rotr y 18 ^^^ y >>> 3) + w.getD 0 0

/-- Step `i` of FIPS 180-4, 6.2.2, with the window of the message schedule. -/
def sha256Step (p : S8 × List UInt32) (i : Nat) : S8 × List UInt32 :=
  let s := p.1
  let w := p.2
  let t1 := s.h + (rotr s.e 6 ^^^ rotr s.e 11 ^^^ rotr s.e 25) + ((s.e &&& s.f) ^^^ (~~~s.e &&& s.g)) + sha256Table.getD i 0 + w.getD 0 0
  let t2 := (rotr s.a 2 ^^^ rotr s.a 13 ^^^ rotr s.a 22) + ((s.a &&& s.b) ^^^ (s.a &&& s.c) ^^^ (s.b &&& s.c))
  (⟨t1 + t2, s.a, s.b, s.c, s.d + t1, s.e, s.f, s.g⟩, w.drop 1 ++ [sha256Next w])

/-- One block of SHA-256 (FIPS 180-4, 6.2.2). -/
def sha256Block (s : S8) (blk : List UInt8) : S8 :=
  let t := ((List.range 64).foldl sha256Step (s, (List.range 16).map fun i => get32BE blk (4 * i))).1
  ⟨s.a + t.a, s.b + t.b, s.c + t.c, s.d + t.d, s.e + t.e, s.f + t.f, s.g + t.g, s.h + t.h⟩

/-- SHA-256 (FIPS 180-4). -/
def sha256 : Hash where
  S := S8
  init := ⟨0x6a09e667, 0xbb67ae85, 0x3c6ef372, 0xa54ff53a, 0x510e527f, 0x9b05688c, 0x1f83d9ab, 0x5be0cd19⟩
  block := sha256Block
  put64 := put64BE
  out s := put32BE s.a ++ put32BE s.b ++ put32BE s.c ++ put32BE s.d ++ put32BE s.e ++ put32BE s.f ++ put32BE s.g ++ put32BE s.h

/-- `MD5` (util/encode.go:39-43), `_md5` (keystore/aes.go:63-67). -/
def md5Sum (bs : List UInt8) : List UInt8 := md5.sum bs

/-- `SHA1` (util/encode.go:49-53). -/
def sha1Sum (bs : List UInt8) : List UInt8 := sha1.sum bs

/-- `_sha256` (keystore/aes.go:69-73). -/
def sha256Sum (bs : List UInt8) : List UInt8 := sha256.sum bs

/-- The digits of `hex.EncodeToString` (library). -/
def hexDigit (n : Nat) : UInt8 := if n < 10 then (48 + n).toUInt8 else (87 + n).toUInt8

/-- `hex.EncodeToString` (library). -/
def hex (bs : List UInt8) : List UInt8 := bs.flatMap fun b => [hexDigit (b.toNat / 16), hexDigit (b.toNat % 16)]

/-- `strings.ToUpper` of ASCII text (library). -/
def toUpper (bs : List UInt8) : List UInt8 := bs.map fun b => if 97 ≤ b ∧ b ≤ 122 then b - 32 else b

/-- `Md5Str` (util/encode.go:45-47). -/
def md5Str (s : List UInt8) : List UInt8 := toUpper (hex (md5Sum s))

/-- `Sha1Str` (util/encode.go:55-57). -/
def sha1Str (s : List UInt8) : List UInt8 := toUpper (hex (sha1Sum s))

end Gofer.Digest
