import Verif.Model.Bloom
import Mathlib.Analysis.SpecialFunctions.Log.Basic
import Mathlib.Data.Fintype.Pi
import Mathlib.Data.Fintype.Prod
/-!
# Sizing of a Bloom filter, and its rate of false positives

The constructor's `float64` arithmetic (cache/bloom.go:31-38) is taken as exact arithmetic of real numbers; a result that is an integer up to the rounding error may so be off by one. The
hash values are taken as independent and uniform: a rate is the part of all tables of positions for which something happens. (`maphash` values modulo a number that is not a power of two are
uniform up to `2^-64 * 64 * arraySize` only.)
-/
namespace Gofer.Bloom
open Gofer.Spec.Bloom (Op)

/-- `m` (cache/bloom.go:31). -/
noncomputable def sizeBits (E : Nat) (p : ℝ) : Nat := ⌊-(E : ℝ) * Real.log p / (Real.log 2 * Real.log 2)⌋₊

/-- `k` (cache/bloom.go:32-37). -/
noncomputable def sizeHash (E : Nat) (p : ℝ) : Nat :=
  if ⌊(sizeBits E p : ℝ) / E * Real.log 2⌋₊ = 0 then 1
  else if ⌊(sizeBits E p : ℝ) / E * Real.log 2⌋₊ > 29 then 30
  else ⌊(sizeBits E p : ℝ) / E * Real.log 2⌋₊

/-- `words` (cache/bloom.go:38-39). -/
noncomputable def sizeWords (E : Nat) (p : ℝ) : Nat := (sizeBits E p + 64 - 1) / 64

/-- The positions of `n` items and of one more. -/
abbrev Table (n k M : Nat) := (Fin n → Fin k → Fin M) × (Fin k → Fin M)

/-- A hash function with these positions; the further item is `n`. -/
def hashOf {n k M : Nat} (t : Table n k M) (i y : Nat) : UInt64 :=
  if hi : i < k then
    if hy : y < n then (t.1 ⟨y, hy⟩ ⟨i, hi⟩).val.toUInt64 else (t.2 ⟨i, hi⟩).val.toUInt64
  else 0

/-- `Contains` of a further item after `Add` of `n` different ones (cache/bloom.go:77-96). -/
def falsePositive (k W E n : Nat) (t : Table n k (W * 64)) : Bool :=
  (contains (hashOf t) (final (hashOf t) (new k W E) ((List.range n).map Op.add)) n).2

/-- The rate of false positives after `n` items. -/
noncomputable def rate (k W E n : Nat) : ℝ :=
  ((Finset.univ.filter fun t : Table n k (W * 64) => falsePositive k W E n t = true).card : ℝ) / (Fintype.card (Table n k (W * 64)) : ℝ)

end Gofer.Bloom
