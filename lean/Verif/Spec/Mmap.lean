/-!
# Regions of a file
-/
namespace Gofer.Spec.Mmap

/-- Address `a` lies in the region of `len` bytes at `start`. -/
def In (a start len : Nat) : Prop := start ≤ a ∧ a < start + len

/-- Two regions have no address in common. -/
def Apart (s1 l1 s2 l2 : Nat) : Prop := ∀ a, In a s1 l1 → ¬ In a s2 l2

/-- `m` holds `d` at address `start`. -/
def Holds (m : List UInt8) (start : Nat) (d : List UInt8) : Prop := (m.drop start).take d.length = d

end Gofer.Spec.Mmap
