/-!
# Model of the library `hash/crc64` with the ECMA polynomial

Used by `hashmap/consistenthash.go:25-27` (`hash`) and `util/encode.go:72-74` (`CRC64`). The code is
Go's standard library; the model follows `simpleMakeTable` and `update` (the slicing-by-8 variant Go
uses for long inputs computes the same function and is not modelled).
-/
namespace Gofer.Crc64

/-- `crc64.ECMA` (reversed bit order). -/
def poly : BitVec 64 := 0xC96C5795D7870F42#64

/-- One bit step of `makeTable`: `if crc&1 == 1 { crc = (crc >> 1) ^ poly } else { crc >>= 1 }`. -/
def bitStep (c : BitVec 64) : BitVec 64 :=
  if c.getLsbD 0 then (c >>> 1) ^^^ poly else c >>> 1

/-- `n` bit steps. -/
def bitSteps : Nat → BitVec 64 → BitVec 64
  | 0, c => c
  | n + 1, c => bitSteps n (bitStep c)

/-- Table entry `t[i]` of `makeTable`. -/
def table (i : UInt8) : BitVec 64 := bitSteps 8 (i.toBitVec.setWidth 64)

/-- One byte of `update`: `crc = tab[byte(crc)^v] ^ (crc >> 8)`. -/
def updateByte (crc : BitVec 64) (v : UInt8) : BitVec 64 :=
  table (⟨crc.setWidth 8⟩ ^^^ v) ^^^ (crc >>> 8)

/-- `crc64.Checksum(bs, MakeTable(ECMA))`: `update(0, tab, bs)` complements before and after. -/
def checksum (bs : List UInt8) : BitVec 64 := ~~~ (bs.foldl updateByte (~~~ 0#64))

/-- `util.CRC64` (util/encode.go:72-74) and `hash` (hashmap/consistenthash.go:25-27). -/
def crc64 (bs : List UInt8) : UInt64 := ⟨checksum bs⟩

/-- The check value of CRC-64/XZ. -/
example : crc64 [0x31, 0x32, 0x33, 0x34, 0x35, 0x36, 0x37, 0x38, 0x39] = 0x995DC9BBDF1939FA := by decide +kernel

end Gofer.Crc64
