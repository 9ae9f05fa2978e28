import Verif.Model.Bloom
/-!
# `BloomFilter.String` (cache/bloom.go:54-56) and the memory of a filter

The numbers that `String` prints; `fmt.Sprintf` (library) is not modelled, nor a size of 2^60 words and more, where the product would not fit.
-/
namespace Gofer.Bloom

/-- The numbers in `String` (cache/bloom.go:55). -/
structure Report where
  hashCount : Nat
  arraySize : Nat
  expectedItems : Nat
  bytes : Nat
deriving DecidableEq

/-- `String` (cache/bloom.go:54-56). -/
def report (bf : BF) : Report := ⟨bf.hashCount, bf.arraySize, bf.expectedItems, bf.arraySize * 8 * 2⟩

end Gofer.Bloom
