import Verif.Model.GoSlice
import Verif.Model.Num
import Verif.Spec.Buffer

/-!
# Model of `buffer/buffer.go`

A `*Buffer` points to a slice variable; `none` is the nil pointer. `append` may leave any spare capacity, chosen
by `extra`. `int32ToBytes` (buffer/buffer.go:119-125) is the same function as `util.Int32ToBytes`.
-/
namespace Gofer.Buffer
open Gofer.GoSlice Gofer.Num Gofer.Spec.Buffer

/-- `NewBuffer` (buffer/buffer.go:22-25). -/
def newBuffer (h : Heap) : Heap × Slice := make h 0

/-- `NewBufferWithCapacity` (buffer/buffer.go:27-30); a negative capacity panics. -/
def newBufferWithCapacity (h : Heap) (capacity : Int) : Option (Heap × Slice) :=
  if capacity < 0 then none
  else
    let (h, s) := make h capacity.toNat
    some (h, { s with len := 0 })

/-- `NewBufferBySlice` (buffer/buffer.go:36-38). -/
def newBufferBySlice (h : Heap) (bs : Slice) : Heap × Slice := (h, bs)

/-- `Buffer.Reset` (buffer/buffer.go:42-44). -/
def reset (h : Heap) : Option Slice → Heap × Option Slice × Res
  | some s => (h, some { s with len := 0 }, .done false)
  | none => (h, none, .panic)

/-- `Buffer.Write` (buffer/buffer.go:46-53). -/
def write (h : Heap) (p : List UInt8) (extra : Nat) : Option Slice → Heap × Option Slice × Res
  | some s => ((append h s p extra).1, some (append h s p extra).2, .count p.length false)
  | none => (h, none, .count 0 true)

/-- `Buffer.WriteString` (buffer/buffer.go:55-62). -/
def writeString (h : Heap) (p : List UInt8) (extra : Nat) : Option Slice → Heap × Option Slice × Res
  | some s => ((append h s p extra).1, some (append h s p extra).2, .count p.length false)
  | none => (h, none, .count 0 true)

/-- `Buffer.WriteInt32` (buffer/buffer.go:64-71). -/
def writeInt32 (h : Heap) (i : BitVec 64) (extra : Nat) : Option Slice → Heap × Option Slice × Res
  | some s =>
    let bs := int32ToBytes (i.setWidth 32)
    ((append h s bs extra).1, some (append h s bs extra).2, .count 8 false)
  | none => (h, none, .count 0 true)

/-- `Buffer.WriteByte` (buffer/buffer.go:73-80). -/
def writeByte (h : Heap) (c : UInt8) (extra : Nat) : Option Slice → Heap × Option Slice × Res
  | some s => ((append h s [c] extra).1, some (append h s [c] extra).2, .done false)
  | none => (h, none, .done true)

/-- `Buffer.Bytes` (buffer/buffer.go:82-87): the slice itself; here its contents. -/
def bytesOf (h : Heap) : Option Slice → List UInt8
  | some s => GoSlice.bytes h s
  | none => []

/-- `Buffer.Len` (buffer/buffer.go:95-97). -/
def len : Option Slice → Res
  | some s => .count s.len false
  | none => .panic

/-- The built-in `copy` (language): returns the number of bytes copied. -/
def copy (h : Heap) (dst src : Slice) : Heap × Nat :=
  let n := min dst.len src.len
  (h.write dst.arr dst.off ((GoSlice.bytes h src).take n), n)

/-- What `Read` leaves after copying `n` bytes (buffer/buffer.go:106-108). -/
def rest (s : Slice) (n : Nat) : Slice :=
  if n < s.len then { s with off := s.off + n, len := s.len - n, cap := s.cap - n } else s

/-- `Buffer.Read` (buffer/buffer.go:99-110). -/
def read (h : Heap) (p : Slice) : Option Slice → Heap × Option Slice × Res
  | none => if p.len = 0 then (h, none, .read [] false) else (h, none, .read [] true)
  | some s =>
    let r := copy h p s
    (r.1, some (rest s r.2), .read ((GoSlice.bytes r.1 p).take r.2) false)

/-- One call; `Read` is given a new slice. -/
def step (h : Heap) (b : Option Slice) (o : Op) (extra : Nat) : Heap × Option Slice × Res :=
  match o with
  | .write p => write h p extra b
  | .writeString p => writeString h p extra b
  | .writeInt32 i => writeInt32 h i extra b
  | .writeByte c => writeByte h c extra b
  | .reset => reset h b
  | .bytes => (h, b, .data (bytesOf h b))
  | .string => (h, b, .data (bytesOf h b))
  | .len => (h, b, len b)
  | .read k => read (make h k).1 (make h k).2 b

/-- A history of calls, each with the spare capacity its `append` leaves. -/
def run (h : Heap) (b : Option Slice) : List (Op × Nat) → Heap × Option Slice × List Res
  | [] => (h, b, [])
  | (o, e) :: os =>
    let r := step h b o e
    let t := run r.1 r.2.1 os
    (t.1, t.2.1, r.2.2 :: t.2.2)

end Gofer.Buffer
