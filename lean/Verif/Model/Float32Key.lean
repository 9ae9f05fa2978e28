import Verif.Model.LimitHashMap
/-!
# Keys of type `float32` of `LimitHashMap` (hashmap/limithashmap.go:107-110)

`math.Float64bits(float64(key))`: the conversion of a float32 to a float64 (hardware; `CVTSS2SD` on amd64, `FCVT` on arm64).
-/
namespace Gofer.LimitHashMap

/-- The bits of `float64(key)`. A fraction of 23 bits gets 29 more; numbers below the normal ones of float32 are normal ones of float64; of a NaN the bit that says that
it is quiet is set. -/
def widen (k : Nat) : Nat :=
  let s := k / 2 ^ 31
  let e := k / 2 ^ 23 % 256
  let f := k % 2 ^ 23
  if e = 255 then s * 2 ^ 63 + 2047 * 2 ^ 52 + (if f = 0 then 0 else 2 ^ 51 + f % 2 ^ 22 * 2 ^ 29)
  else if e = 0 then
    if f = 0 then s * 2 ^ 63 else s * 2 ^ 63 + (f.log2 + 874) * 2 ^ 52 + (f - 2 ^ f.log2) * 2 ^ (52 - f.log2)
  else s * 2 ^ 63 + (e + 896) * 2 ^ 52 + f * 2 ^ 29

/-- `float32` (hashmap/limithashmap.go:107-110). -/
def hashFloat32 (bits : BitVec 32) : UInt64 := UInt64.ofNat (widen bits.toNat)

/-- 1.5, the smallest float32, minus infinity. -/
example : hashFloat32 0x3fc00000 = 0x3ff8000000000000 ∧ hashFloat32 1 = 0x36a0000000000000 ∧ hashFloat32 0xff800000 = 0xfff0000000000000 := by decide +kernel

end Gofer.LimitHashMap
