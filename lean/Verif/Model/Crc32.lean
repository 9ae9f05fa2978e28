/-!
# Model of the library `hash/crc32` with the IEEE polynomial

Used by `util/encode.go:68-70` (`CRC32`). The code is Go's standard library; the model follows
`simpleMakeTable` and `simpleUpdate` (the slicing-by-8 and hardware variants compute the same function
and are not modelled).
-/
namespace Gofer.Crc32

/-- `crc32.IEEE` (reversed bit order). -/
def poly : BitVec 32 := 0xedb88320#32

/-- One bit step of `simplePopulateTable`: `if crc&1 == 1 { crc = (crc >> 1) ^ poly } else { crc >>= 1 }`. -/
def bitStep (c : BitVec 32) : BitVec 32 :=
  if c.getLsbD 0 then (c >>> 1) ^^^ poly else c >>> 1

/-- `n` bit steps. -/
def bitSteps : Nat → BitVec 32 → BitVec 32
  | 0, c => c
  | n + 1, c => bitSteps n (bitStep c)

/-- Table entry `t[i]`. -/
def table (i : UInt8) : BitVec 32 := bitSteps 8 (i.toBitVec.setWidth 32)

/-- One byte of `simpleUpdate`: `crc = tab[byte(crc)^v] ^ (crc >> 8)`. -/
def updateByte (crc : BitVec 32) (v : UInt8) : BitVec 32 :=
  table (⟨crc.setWidth 8⟩ ^^^ v) ^^^ (crc >>> 8)

/-- `crc32.ChecksumIEEE(bs)`: complemented before and after. -/
def checksum (bs : List UInt8) : BitVec 32 := ~~~ (bs.foldl updateByte (~~~ 0#32))

/-- `util.CRC32` (util/encode.go:68-70). -/
def crc32 (bs : List UInt8) : UInt32 := ⟨checksum bs⟩

/-- The check value of CRC-32. -/
example : crc32 [0x31, 0x32, 0x33, 0x34, 0x35, 0x36, 0x37, 0x38, 0x39] = 0xcbf43926 := by decide +kernel

end Gofer.Crc32
