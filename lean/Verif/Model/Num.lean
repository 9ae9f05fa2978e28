/-!
# Model of `util/num.go`

`int64`, `int32`, `int16` are `BitVec 64/32/16`, read as two's complement (`BitVec.toInt`).
Go's `>>` on a signed integer is the arithmetic shift (`BitVec.sshiftRight`), `byte(x)` keeps the low
8 bits, `intN(b)` of a byte zero-extends. An index out of range cannot happen in these functions;
`getD`'s default is never used.
-/
namespace Gofer.Num

/-- Go conversion `byte(x)`. -/
def toByte {w : Nat} (x : BitVec w) : UInt8 := UInt8.ofBitVec (x.setWidth 8)

/-- Go conversion `int64(b)`, `int32(b)`, `int16(b)` of a byte. -/
def ofByte (w : Nat) (b : UInt8) : BitVec w := b.toBitVec.setWidth w

/-- `Int64ToBytes` (util/num.go:16-22). -/
def int64ToBytes (n : BitVec 64) : List UInt8 :=
  (List.range 8).map fun i => toByte (n.sshiftRight (8 * (7 - i)))

/-- `Int32ToBytes` (util/num.go:39-45). -/
def int32ToBytes (n : BitVec 32) : List UInt8 :=
  (List.range 4).map fun i => toByte (n.sshiftRight (8 * (3 - i)))

/-- `Int16ToBytes` (util/num.go:47-53). -/
def int16ToBytes (n : BitVec 16) : List UInt8 :=
  (List.range 2).map fun i => toByte (n.sshiftRight (8 * (1 - i)))

/-- The padding loop `for i, b := range bs { bsk[i+k-len(bs)] = b }` over a zeroed array of length `k`
(util/num.go:30-33, 60-63, 77-80). -/
def padLoop (k : Nat) (bs : List UInt8) : List UInt8 :=
  (List.range bs.length).foldl (fun a i => a.set (i + k - bs.length) (bs.getD i 0))
    (List.replicate k 0)

/-- The or-loop of `BytesToInt64` (util/num.go:26-28). -/
def orLoop64 (bs : List UInt8) : BitVec 64 :=
  (List.range 8).foldl (fun r i => r ||| (ofByte 64 (bs.getD i 0) <<< (8 * (7 - i)))) 0

/-- `BytesToInt64` (util/num.go:24-37); the recursive call sees a slice of length 8. -/
def bytesToInt64 (bs : List UInt8) : BitVec 64 :=
  if bs.length ≥ 8 then orLoop64 bs else orLoop64 (padLoop 8 bs)

/-- The or-loop of `BytesToInt32` (util/num.go:57-59). -/
def orLoop32 (bs : List UInt8) : BitVec 32 :=
  (List.range 4).foldl (fun r i => r ||| (ofByte 32 (bs.getD i 0) <<< (8 * (3 - i)))) 0

/-- `BytesToInt32` (util/num.go:55-68). -/
def bytesToInt32 (bs : List UInt8) : BitVec 32 :=
  if bs.length ≥ 4 then orLoop32 bs else orLoop32 (padLoop 4 bs)

/-- The or-loop of `BytesToInt16` (util/num.go:72-74). -/
def orLoop16 (bs : List UInt8) : BitVec 16 :=
  (List.range 2).foldl (fun r i => r ||| (ofByte 16 (bs.getD i 0) <<< (8 * (1 - i)))) 0

/-- `BytesToInt16` (util/num.go:70-83). -/
def bytesToInt16 (bs : List UInt8) : BitVec 16 :=
  if bs.length ≥ 2 then orLoop16 bs else orLoop16 (padLoop 2 bs)

/-- Library: `binary.BigEndian.PutUint64` (encoding/binary): `b[i] = byte(v >> (56-8i))` on `uint64`. -/
def putUint64 (v : BitVec 64) : List UInt8 :=
  (List.range 8).map fun i => toByte (v >>> (56 - 8 * i))

/-- Library: `binary.BigEndian.Uint64`: `b[7] | b[6]<<8 | ... | b[0]<<56`. -/
def getUint64 (b : List UInt8) : BitVec 64 :=
  (List.range 8).foldl (fun r j => r ||| (ofByte 64 (b.getD (7 - j) 0) <<< (8 * j))) 0

/-- `IntArrayToBytes` (util/num.go:85-89). `binary.Write` of an `[]int64` is its fast path: one
`PutUint64` per element in order. -/
def intArrayToBytes (n : List (BitVec 64)) : List UInt8 := n.flatMap putUint64

/-- `BytesToIntArray` (util/num.go:91-96). `binary.Read` into a slice of length `len(bs)/8` reads
`8*(len(bs)/8)` bytes (always available) and decodes element `i` from `bs[8*i:]`. -/
def bytesToIntArray (bs : List UInt8) : List (BitVec 64) :=
  (List.range (bs.length / 8)).map fun i => getUint64 (bs.drop (8 * i))

end Gofer.Num
