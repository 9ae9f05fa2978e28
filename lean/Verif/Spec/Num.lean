/-!
# Specification of big-endian numbers
-/
namespace Gofer.Spec.Num

/-- Value of a byte string read as a big-endian unsigned number. -/
def beValue (bs : List UInt8) : Nat := bs.foldl (fun a b => a * 256 + b.toNat) 0

end Gofer.Spec.Num
