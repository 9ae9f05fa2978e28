/-!
# Names of header fields
-/
namespace Gofer.Spec.Http

/-- A letter in lower case. -/
def low (b : UInt8) : UInt8 := if 65 ≤ b && b ≤ 90 then b + 32 else b

/-- Names that HTTP does not tell apart: the same but for the case of letters. -/
def SameName (a b : List UInt8) : Prop := a.map low = b.map low

instance (a b : List UInt8) : Decidable (SameName a b) := inferInstanceAs (Decidable (_ = _))

end Gofer.Spec.Http
