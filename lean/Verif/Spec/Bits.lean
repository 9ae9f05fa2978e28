/-!
# Bits of a message and error patterns
-/
namespace Gofer.Spec.Bits

/-- The bits of a byte, least significant first (the order in which a UART sends them). -/
def byteBits (b : UInt8) : List Bool := (List.range 8).map fun i => b.toNat.testBit i

/-- The bits of a message. -/
def bits (bs : List UInt8) : List Bool := bs.flatMap byteBits

/-- The positions at which two messages of the same length differ, as a list of bits. -/
def errors (a b : List UInt8) : List Bool := List.zipWith (fun x y => x ^^ y) (bits a) (bits b)

end Gofer.Spec.Bits
