import Verif.Model.AMap

/-!
# `Blake2b` of `util/encode.go`

`golang.org/x/crypto/blake2b` is library code; it is modelled after its portable implementation (`blake2b.go`,
`blake2b_generic.go`): the state with the buffer of one block, the counter of two words, and the rounds over sixteen variables.
-/
namespace Gofer.Blake2b

/-- `iv` (library: blake2b.go). -/
def iv : List UInt64 :=
  [0x6a09e667f3bcc908, 0xbb67ae8584caa73b, 0x3c6ef372fe94f82b, 0xa54ff53a5f1d36f1,
   0x510e527fade682d1, 0x9b05688c2b3e6c1f, 0x1f83d9abfb41bd6b, 0x5be0cd19137e2179]

/-- `precomputed` (library: blake2b_generic.go): the schedule, in the order in which a round uses the words. -/
def precomputed : List (List Nat) :=
  [[0, 2, 4, 6, 1, 3, 5, 7, 8, 10, 12, 14, 9, 11, 13, 15],
   [14, 4, 9, 13, 10, 8, 15, 6, 1, 0, 11, 5, 12, 2, 7, 3],
   [11, 12, 5, 15, 8, 0, 2, 13, 10, 3, 7, 9, 14, 6, 1, 4],
   [7, 3, 13, 11, 9, 1, 12, 14, 2, 5, 4, 15, 6, 10, 0, 8],
   [9, 5, 2, 10, 0, 7, 4, 15, 14, 11, 6, 3, 1, 12, 8, 13],
   [2, 6, 0, 8, 12, 10, 11, 3, 4, 7, 15, 1, 13, 5, 14, 9],
   [12, 1, 14, 4, 5, 15, 13, 10, 0, 6, 9, 8, 7, 3, 2, 11],
   [13, 7, 12, 3, 11, 14, 1, 9, 5, 15, 8, 2, 0, 4, 6, 10],
   [6, 14, 11, 0, 15, 9, 3, 8, 12, 13, 1, 10, 2, 7, 4, 5],
   [10, 8, 7, 1, 2, 4, 6, 5, 15, 9, 3, 13, 11, 14, 12, 0],
   [0, 2, 4, 6, 1, 3, 5, 7, 8, 10, 12, 14, 9, 11, 13, 15],
   [14, 4, 9, 13, 10, 8, 15, 6, 1, 0, 11, 5, 12, 2, 7, 3]]

/-- `bits.RotateLeft64(x, -k)`, 0 < k < 64 (library). -/
def rotateLeftNeg (x : UInt64) (k : Nat) : UInt64 := x <<< (64 - k).toUInt64 ||| x >>> k.toUInt64

/-- The sixteen variables `v0` … `v15` of `hashBlocksGeneric` (library), four columns of four. -/
structure Quad where
  a : UInt64
  b : UInt64
  c : UInt64
  d : UInt64
deriving DecidableEq, Repr

/-- One group of statements of `hashBlocksGeneric` (library): `va += m; va += vb; vd ^= va; vd = RotateLeft64(vd, -r1);
vc += vd; vb ^= vc; vb = RotateLeft64(vb, -r2)`. -/
def half (r1 r2 : Nat) (q : Quad) (x : UInt64) : Quad :=
  let a := q.a + x
  let a := a + q.b
  let d := rotateLeftNeg (q.d ^^^ a) r1
  let c := q.c + d
  let b := rotateLeftNeg (q.b ^^^ c) r2
  ⟨a, b, c, d⟩

/-- The variables by columns: `v0 v4 v8 v12`, `v1 v5 v9 v13`, `v2 v6 v10 v14`, `v3 v7 v11 v15`. -/
structure Vars where
  q0 : Quad
  q1 : Quad
  q2 : Quad
  q3 : Quad
deriving DecidableEq, Repr

/-- The body of `for j := range precomputed` of `hashBlocksGeneric` (library) for one row `s`. -/
def round (m : List UInt64) (v : Vars) (s : List Nat) : Vars :=
  let w := fun k => m.getD (s.getD k 0) 0
  let q0 := half 32 24 v.q0 (w 0)
  let q1 := half 32 24 v.q1 (w 1)
  let q2 := half 32 24 v.q2 (w 2)
  let q3 := half 32 24 v.q3 (w 3)
  let q0 := half 16 63 q0 (w 4)
  let q1 := half 16 63 q1 (w 5)
  let q2 := half 16 63 q2 (w 6)
  let q3 := half 16 63 q3 (w 7)
  let p0 := half 32 24 ⟨q0.a, q1.b, q2.c, q3.d⟩ (w 8)
  let p1 := half 32 24 ⟨q1.a, q2.b, q3.c, q0.d⟩ (w 9)
  let p2 := half 32 24 ⟨q2.a, q3.b, q0.c, q1.d⟩ (w 10)
  let p3 := half 32 24 ⟨q3.a, q0.b, q1.c, q2.d⟩ (w 11)
  let p0 := half 16 63 p0 (w 12)
  let p1 := half 16 63 p1 (w 13)
  let p2 := half 16 63 p2 (w 14)
  let p3 := half 16 63 p3 (w 15)
  ⟨⟨p0.a, p3.b, p2.c, p1.d⟩, ⟨p1.a, p0.b, p3.c, p2.d⟩, ⟨p2.a, p1.b, p0.c, p3.d⟩, ⟨p3.a, p2.b, p1.c, p0.d⟩⟩

/-- The eight words `h[0]` … `h[7]`. -/
structure H where
  h0 : UInt64
  h1 : UInt64
  h2 : UInt64
  h3 : UInt64
  h4 : UInt64
  h5 : UInt64
  h6 : UInt64
  h7 : UInt64
deriving DecidableEq, Repr

/-- `binary.LittleEndian.Uint64` (library) of the bytes from `i` on. -/
def getLE (bs : List UInt8) (i : Nat) : UInt64 :=
  (bs.getD i 0).toUInt64 ||| (bs.getD (i + 1) 0).toUInt64 <<< 8 ||| (bs.getD (i + 2) 0).toUInt64 <<< 16 |||
    (bs.getD (i + 3) 0).toUInt64 <<< 24 ||| (bs.getD (i + 4) 0).toUInt64 <<< 32 ||| (bs.getD (i + 5) 0).toUInt64 <<< 40 |||
    (bs.getD (i + 6) 0).toUInt64 <<< 48 ||| (bs.getD (i + 7) 0).toUInt64 <<< 56

/-- The variables at the beginning of a block (library: `hashBlocksGeneric`). -/
def vars (h : H) (c0 c1 flag : UInt64) : Vars :=
  ⟨⟨h.h0, h.h4, iv.getD 0 0, iv.getD 4 0 ^^^ c0⟩, ⟨h.h1, h.h5, iv.getD 1 0, iv.getD 5 0 ^^^ c1⟩,
   ⟨h.h2, h.h6, iv.getD 2 0, iv.getD 6 0 ^^^ flag⟩, ⟨h.h3, h.h7, iv.getD 3 0, iv.getD 7 0⟩⟩

/-- `h[0] ^= v0 ^ v8` and so on, at the end of a block (library: `hashBlocksGeneric`). -/
def fold (h : H) (v : Vars) : H :=
  ⟨h.h0 ^^^ v.q0.a ^^^ v.q0.c, h.h1 ^^^ v.q1.a ^^^ v.q1.c, h.h2 ^^^ v.q2.a ^^^ v.q2.c, h.h3 ^^^ v.q3.a ^^^ v.q3.c,
   h.h4 ^^^ v.q0.b ^^^ v.q0.d, h.h5 ^^^ v.q1.b ^^^ v.q1.d, h.h6 ^^^ v.q2.b ^^^ v.q2.d, h.h7 ^^^ v.q3.b ^^^ v.q3.d⟩

/-- State and counter, `d.h` and `d.c` (library: blake2b.go). -/
structure St where
  h : H
  c0 : UInt64
  c1 : UInt64
deriving DecidableEq, Repr

/-- One block of `hashBlocksGeneric` (library): the counter grows by the size of a block with a carry, then the rounds. -/
def hashBlock (s : St) (flag : UInt64) (blk : List UInt8) : St :=
  let c0 := s.c0 + 128
  let c1 := if c0 < 128 then s.c1 + 1 else s.c1
  let m := (List.range 16).map fun j => getLE blk (8 * j)
  ⟨fold s.h (precomputed.foldl (round m) (vars s.h c0 c1 flag)), c0, c1⟩

/-- `hashBlocks` on `n` blocks (library). -/
def hashBlocks : Nat → St → UInt64 → List UInt8 → St
  | 0, s, _, _ => s
  | n + 1, s, flag, bs => hashBlocks n (hashBlock s flag (bs.take 128)) flag (bs.drop 128)

/-- `New256(nil)` (library: `newDigest`, `Reset`): the parameters are the size 32 of the digest and no key. -/
def new256 : St :=
  ⟨⟨iv.getD 0 0 ^^^ ((32 : UInt64) ||| (0 : UInt64) <<< 8 ||| (1 : UInt64) <<< 16 ||| (1 : UInt64) <<< 24), iv.getD 1 0, iv.getD 2 0, iv.getD 3 0, iv.getD 4 0, iv.getD 5 0,
    iv.getD 6 0, iv.getD 7 0⟩, 0, 0⟩

/-- The number of bytes that `Write` on an empty buffer hashes at once (library): whole blocks, but always leaving something. -/
def whole (length : Nat) : Nat :=
  if 128 < length then
    let nn := length / 128 * 128
    if length = nn then nn - 128 else nn
  else 0

/-- `Write` on an empty buffer (library): the state, and the contents of the buffer. -/
def write (s : St) (p : List UInt8) : St × List UInt8 :=
  (hashBlocks (whole p.length / 128) s 0 (p.take (whole p.length)), p.drop (whole p.length))

/-- `binary.LittleEndian.PutUint64` (library). -/
def putLE (v : UInt64) : List UInt8 :=
  [v.toUInt8, (v >>> 8).toUInt8, (v >>> 16).toUInt8, (v >>> 24).toUInt8, (v >>> 32).toUInt8, (v >>> 40).toUInt8,
   (v >>> 48).toUInt8, (v >>> 56).toUInt8]

/-- `finalize` (library): the buffer is filled up with zeros, the counter is taken back by what is missing. -/
def finalize (s : St) (buf : List UInt8) : List UInt8 :=
  let remaining := UInt64.ofNat (128 - buf.length)
  let c1 := if s.c0 < remaining then s.c1 - 1 else s.c1
  let h := (hashBlock ⟨s.h, s.c0 - remaining, c1⟩ 0xffffffffffffffff (buf ++ List.replicate (128 - buf.length) 0)).h
  putLE h.h0 ++ putLE h.h1 ++ putLE h.h2 ++ putLE h.h3 ++ putLE h.h4 ++ putLE h.h5 ++ putLE h.h6 ++ putLE h.h7

/-- `Blake2b` (util/encode.go:155-163): `New256(nil)` fails only for keys that are too long, so the error is nil; the result of
`Sum256` is thrown away. `Sum` returns the first 32 bytes. -/
def blake2b (input : List UInt8) : List UInt8 :=
  let p := write new256 input
  (finalize p.1 p.2).take 32

end Gofer.Blake2b
