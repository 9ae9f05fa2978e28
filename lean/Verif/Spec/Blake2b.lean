/-!
# BLAKE2b (RFC 7693)

The function of RFC 7693 without a key and with 32 bytes of output, as the standard writes it: the message is cut into blocks of
128 bytes, the last one filled up with zeros, and each block is compressed into the state together with the number of bytes of the
message so far and a mark on the last block.
-/
namespace Gofer.Spec.Blake2b

/-- The message schedule (RFC 7693, 2.7). -/
def sigma : List (List Nat) :=
  [[0, 1, 2, 3, 4, 5, 6, 7, 8, 9, 10, 11, 12, 13, 14, 15],
   [14, 10, 4, 8, 9, 15, 13, 6, 1, 12, 0, 2, 11, 7, 5, 3],
   [11, 8, 12, 0, 5, 2, 15, 13, 10, 14, 3, 6, 7, 1, 9, 4],
   [7, 9, 3, 1, 13, 12, 11, 14, 2, 6, 5, 10, 4, 0, 15, 8],
   [9, 0, 5, 7, 2, 4, 10, 15, 14, 1, 11, 12, 6, 8, 3, 13],
   [2, 12, 6, 10, 0, 11, 8, 3, 4, 13, 7, 5, 15, 14, 1, 9],
   [12, 5, 1, 15, 14, 13, 4, 10, 0, 7, 6, 3, 9, 2, 8, 11],
   [13, 11, 7, 14, 12, 1, 3, 9, 5, 0, 15, 4, 8, 6, 2, 10],
   [6, 15, 14, 9, 11, 3, 0, 8, 12, 2, 13, 7, 1, 4, 10, 5],
   [10, 2, 8, 4, 7, 6, 1, 5, 15, 11, 9, 14, 3, 12, 13, 0]]

/-- The initialisation vector (RFC 7693, 2.6). -/
def iv : List UInt64 :=
  [0x6a09e667f3bcc908, 0xbb67ae8584caa73b, 0x3c6ef372fe94f82b, 0xa54ff53a5f1d36f1,
   0x510e527fade682d1, 0x9b05688c2b3e6c1f, 0x1f83d9abfb41bd6b, 0x5be0cd19137e2179]

/-- A rotation to the right by `k` bits, 0 < k < 64 (RFC 7693, 2.3). -/
def rotr (x : UInt64) (k : Nat) : UInt64 := x >>> k.toUInt64 ^^^ x <<< (64 - k).toUInt64

/-- The mixing function `G` on the words `a`, `b`, `c`, `d` of a vector of sixteen (RFC 7693, 3.1). -/
def mix (v : List UInt64) (a b c d : Nat) (x y : UInt64) : List UInt64 :=
  let v := v.set a (v.getD a 0 + v.getD b 0 + x)
  let v := v.set d (rotr (v.getD d 0 ^^^ v.getD a 0) 32)
  let v := v.set c (v.getD c 0 + v.getD d 0)
  let v := v.set b (rotr (v.getD b 0 ^^^ v.getD c 0) 24)
  let v := v.set a (v.getD a 0 + v.getD b 0 + y)
  let v := v.set d (rotr (v.getD d 0 ^^^ v.getD a 0) 16)
  let v := v.set c (v.getD c 0 + v.getD d 0)
  v.set b (rotr (v.getD b 0 ^^^ v.getD c 0) 63)

/-- Round `i` with the words `m` of the block (RFC 7693, 3.2). -/
def round (m v : List UInt64) (i : Nat) : List UInt64 :=
  let w := fun k => m.getD ((sigma.getD (i % 10) []).getD k 0) 0
  let v := mix v 0 4 8 12 (w 0) (w 1)
  let v := mix v 1 5 9 13 (w 2) (w 3)
  let v := mix v 2 6 10 14 (w 4) (w 5)
  let v := mix v 3 7 11 15 (w 6) (w 7)
  let v := mix v 0 5 10 15 (w 8) (w 9)
  let v := mix v 1 6 11 12 (w 10) (w 11)
  let v := mix v 2 7 8 13 (w 12) (w 13)
  mix v 3 4 9 14 (w 14) (w 15)

/-- What one application of the compression function gets besides the state: the sixteen words of the block, the number of bytes
up to its end, and whether it is the last one. -/
structure Call where
  m : List UInt64
  t : Nat
  last : Bool
deriving DecidableEq, Repr

/-- The compression function `F` (RFC 7693, 3.2). -/
def compress (h : List UInt64) (c : Call) : List UInt64 :=
  let v := h ++ iv
  let v := v.set 12 (v.getD 12 0 ^^^ UInt64.ofNat (c.t % 2 ^ 64))
  let v := v.set 13 (v.getD 13 0 ^^^ UInt64.ofNat (c.t / 2 ^ 64))
  let v := if c.last then v.set 14 (v.getD 14 0 ^^^ 0xffffffffffffffff) else v
  let v := (List.range 12).foldl (round c.m) v
  (List.range 8).map fun i => h.getD i 0 ^^^ v.getD i 0 ^^^ v.getD (i + 8) 0

/-- The number made of eight bytes, the least significant first (RFC 7693, 2.4). -/
def word (bs : List UInt8) : UInt64 := UInt64.ofNat (bs.foldr (fun b n => b.toNat + 256 * n) 0)

/-- The bytes `128 i` to `128 i + 127` of the message, zeros after its end, as sixteen words (RFC 7693, 2.4 and 3.3). -/
def block (msg : List UInt8) (i : Nat) : List UInt64 :=
  (List.range 16).map fun j => word ((List.range 8).map fun k => msg.getD (128 * i + 8 * j + k) 0)

/-- The number of blocks (RFC 7693, 3.3): an empty message has one. -/
def count (n : Nat) : Nat := if n = 0 then 1 else (n + 127) / 128

/-- The calls of the compression function for a message (RFC 7693, 3.3). -/
def calls (msg : List UInt8) : List Call :=
  (List.range (count msg.length)).map fun i =>
    if i + 1 = count msg.length then ⟨block msg i, msg.length, true⟩ else ⟨block msg i, 128 * (i + 1), false⟩

/-- The first state: the parameters are 32 bytes of output, no key, one round of hashing (RFC 7693, 2.5 and 3.3). -/
def start : List UInt64 := iv.set 0 (iv.getD 0 0 ^^^ 0x01010000 ^^^ 32)

/-- The eight bytes of a number, the least significant first. -/
def bytes (x : UInt64) : List UInt8 := (List.range 8).map fun k => UInt8.ofNat (x.toNat / 256 ^ k)

/-- BLAKE2b with 32 bytes of output (RFC 7693, 3.3). -/
def hash (msg : List UInt8) : List UInt8 := (((calls msg).foldl compress start).flatMap bytes).take 32

end Gofer.Spec.Blake2b
