/-!
# The text form of a UUID

Five groups of 8, 4, 4, 4 and 12 hexadecimal digits with '-' (45) between them.
-/
namespace Gofer.Spec.Uuid

/-- The value of a hexadecimal digit, either case. -/
def digitValue (c : UInt8) : Option Nat :=
  if 48 ≤ c ∧ c ≤ 57 then some (c.toNat - 48)
  else if 97 ≤ c ∧ c ≤ 102 then some (c.toNat - 87)
  else if 65 ≤ c ∧ c ≤ 70 then some (c.toNat - 55)
  else none

/-- `c` is a hexadecimal digit. -/
def IsHex (c : UInt8) : Prop := (digitValue c).isSome

/-- `c` is a lower-case hexadecimal digit. -/
def IsLowerHex (c : UInt8) : Prop := (48 ≤ c ∧ c ≤ 57) ∨ (97 ≤ c ∧ c ≤ 102)

/-- The digits `ds` spell the bytes `bs`, two per byte, the high one first. -/
def Spells : List UInt8 → List UInt8 → Prop
  | [], [] => True
  | h :: l :: ds, b :: bs => digitValue h = some (b.toNat / 16) ∧ digitValue l = some (b.toNat % 16) ∧ Spells ds bs
  | _, _ => False

/-- `s` is five groups of digits with `seps` between them. -/
structure Grouped (s : List UInt8) (g1 g2 g3 g4 g5 : List UInt8) (s1 s2 s3 s4 : UInt8) : Prop where
  eq : s = g1 ++ s1 :: (g2 ++ s2 :: (g3 ++ s3 :: (g4 ++ s4 :: g5)))
  l1 : g1.length = 8
  l2 : g2.length = 4
  l3 : g3.length = 4
  l4 : g4.length = 4
  l5 : g5.length = 12

/-- `s` is a UUID text for the bytes `bs`. -/
def TextOf (s bs : List UInt8) : Prop :=
  ∃ g1 g2 g3 g4 g5, Grouped s g1 g2 g3 g4 g5 45 45 45 45 ∧ Spells (g1 ++ g2 ++ g3 ++ g4 ++ g5) bs

end Gofer.Spec.Uuid
