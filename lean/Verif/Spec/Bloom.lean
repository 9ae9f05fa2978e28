/-!
# Specification of the rotating Bloom filter (`BloomFilter`)
-/
namespace Gofer.Spec.Bloom
variable {I : Type}

inductive Op (I : Type) where
  | add (x : I)
  | contains (x : I)

/-- The items added, oldest first. -/
def adds : List (Op I) → List I
  | [] => []
  | .add x :: os => x :: adds os
  | .contains _ :: os => adds os

/-- The last `w` elements. -/
def last (w : Nat) (l : List I) : List I := l.drop (l.length - w)

/-- A Bloom filter with bit positions `pos i x` (`i < k`) answers yes for `x` iff each of the positions
of `x` is a position of some remembered item. -/
def Hit (k : Nat) (pos : Nat → I → Nat) (mem : List I) (x : I) : Prop :=
  ∀ i < k, ∃ y ∈ mem, ∃ j < k, pos j y = pos i x

end Gofer.Spec.Bloom
