/-!
# Model of Go byte slices with their backing arrays

A heap of byte arrays; a slice is a window of an array with a capacity. Library/language semantics
(Go spec, "Slice types", "Appending to and copying slices"); there is no /repo source for it.
-/
namespace Gofer.GoSlice

/-- The heap: array number `i` is `arrays[i]`. Nothing is ever freed. -/
structure Heap where
  arrays : List (List UInt8)
deriving DecidableEq

/-- A slice value. A nil slice is one with `len = cap = 0`. -/
structure Slice where
  arr : Nat
  off : Nat
  len : Nat
  cap : Nat
deriving DecidableEq

/-- Contents of array `i`. -/
def Heap.get (h : Heap) (i : Nat) : List UInt8 := h.arrays.getD i []

/-- A slice that can exist: it lies inside an allocated array. -/
structure Valid (h : Heap) (s : Slice) : Prop where
  arr : s.arr < h.arrays.length
  cap : s.off + s.cap ≤ (h.get s.arr).length
  len : s.len ≤ s.cap

/-- The bytes of a slice. -/
def bytes (h : Heap) (s : Slice) : List UInt8 := ((h.get s.arr).drop s.off).take s.len

/-- Overwrite `data.length` bytes of array `i` starting at `pos`. -/
def Heap.write (h : Heap) (i pos : Nat) (data : List UInt8) : Heap :=
  ⟨h.arrays.set i ((h.get i).take pos ++ data ++ (h.get i).drop (pos + data.length))⟩

/-- A new array. -/
def Heap.alloc (h : Heap) (data : List UInt8) : Heap × Nat := (⟨h.arrays ++ [data]⟩, h.arrays.length)

/-- `append(s, bs...)`: in place if the capacity suffices, else in a new array with `extra` spare bytes
(how many is up to the runtime). -/
def append (h : Heap) (s : Slice) (bs : List UInt8) (extra : Nat) : Heap × Slice :=
  if s.len + bs.length ≤ s.cap then
    (h.write s.arr (s.off + s.len) bs, { s with len := s.len + bs.length })
  else
    let (h, i) := h.alloc (bytes h s ++ bs ++ List.replicate extra 0)
    (h, ⟨i, 0, s.len + bs.length, s.len + bs.length + extra⟩)

/-- `make([]byte, n)`. -/
def make (h : Heap) (n : Nat) : Heap × Slice :=
  let (h, i) := h.alloc (List.replicate n 0)
  (h, ⟨i, 0, n, n⟩)

/-- Store `data` over the beginning of the slice (used when `data.length ≤ len`). -/
def fill (h : Heap) (s : Slice) (data : List UInt8) : Heap := h.write s.arr s.off data

end Gofer.GoSlice
