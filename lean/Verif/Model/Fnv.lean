/-!
# Model of `FNVHash32` and `FNVHash64` (`util/encode.go`)

`hash/fnv` (library): FNV-1a, xor the byte in, then multiply by the prime.
-/
namespace Gofer.Fnv

/-- One byte of `sum32a.Write` (library). -/
def step32 (h : UInt32) (b : UInt8) : UInt32 := (h ^^^ b.toUInt32) * 16777619

/-- `FNVHash32` (util/encode.go:82-86). -/
def fnvHash32 (data : List UInt8) : UInt32 := data.foldl step32 2166136261

/-- One byte of `sum64a.Write` (library). -/
def step64 (h : UInt64) (b : UInt8) : UInt64 := (h ^^^ b.toUInt64) * 1099511628211

/-- `FNVHash64` (util/encode.go:88-92). -/
def fnvHash64 (data : List UInt8) : UInt64 := data.foldl step64 14695981039346656037

/-- Published test values: the hash of "foobar". -/
example : fnvHash32 [0x66, 0x6f, 0x6f, 0x62, 0x61, 0x72] = 0xbf9cf968 := by decide +kernel
example : fnvHash64 [0x66, 0x6f, 0x6f, 0x62, 0x61, 0x72] = 0x85944171f73967e8 := by decide +kernel

end Gofer.Fnv
