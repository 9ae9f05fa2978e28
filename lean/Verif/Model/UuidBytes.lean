import Verif.Model.Uuid
/-!
# `UUID.Bytes` (uuid/uuid.go:64-66): the bytes are lent

`NewUUID` (uuid/uuid.go:32-40) and `Parse` (:95-105) return a pointer to a fresh array of 16 bytes, `Bytes` a slice of that array. Go (language): a slice is a part of an array with room up to its
capacity; `s[i:j]` shows the same array; `append` writes into the array if there is room, else it copies into a fresh array, with some room left. An operation that panics does nothing here (a caller may
recover). Not modelled: slices of slices with three indices, and several goroutines.
-/
namespace Gofer.UuidBytes
open Gofer.Uuid

/-- A slice: positions `off` to `off + len` of array `arr`, with room up to `off + cap`. -/
structure Slice where
  arr : Nat
  off : Nat
  len : Nat
  cap : Nat
deriving DecidableEq

/-- The arrays, UUIDs among them, and all slices obtained so far. -/
structure St where
  arrays : List Bytes
  slices : List Slice
deriving DecidableEq

/-- What a program does with UUIDs; arrays and slices by number, in the order they came up. -/
inductive Op where
  /-- `NewUUID()` or `Parse`, which made these bytes -/
  | new (b : Bytes)
  /-- `u.Bytes()` for the UUID that is array `p` -/
  | bytes (p : Nat)
  /-- `s[i:j]` -/
  | cut (k i j : Nat)
  /-- `s[i] = v` -/
  | write (k i : Nat) (v : UInt8)
  /-- `append(s, xs...)`; `room` is left in a fresh array -/
  | append (k : Nat) (xs : Bytes) (room : Nat)
deriving DecidableEq

/-- `u.Bytes()` is `u[:]` (uuid/uuid.go:64-66). -/
def bytesOf (p : Nat) : Slice := ⟨p, 0, 16, 16⟩

/-- One operation. -/
def step (s : St) : Op → St
  | .new b => if b.length = 16 then { s with arrays := s.arrays ++ [b] } else s
  | .bytes p =>
    match s.arrays[p]? with
    | some a => if a.length = 16 then { s with slices := s.slices ++ [bytesOf p] } else s
    | none => s
  | .cut k i j =>
    match s.slices[k]? with
    | some sl => if i ≤ j ∧ j ≤ sl.cap then { s with slices := s.slices ++ [⟨sl.arr, sl.off + i, j - i, sl.cap - i⟩] } else s
    | none => s
  | .write k i v =>
    match s.slices[k]? with
    | some sl => if i < sl.len then { s with arrays := s.arrays.modify sl.arr fun a => a.set (sl.off + i) v } else s
    | none => s
  | .append k xs room =>
    match s.slices[k]? with
    | some sl =>
      if sl.len + xs.length ≤ sl.cap then
        ⟨s.arrays.modify sl.arr fun a => writeAt a (sl.off + sl.len) xs, s.slices ++ [⟨sl.arr, sl.off, sl.len + xs.length, sl.cap⟩]⟩
      else
        ⟨s.arrays ++ [slice (s.arrays.getD sl.arr []) sl.off (sl.off + sl.len) ++ xs ++ List.replicate room 0],
          s.slices ++ [⟨s.arrays.length, 0, sl.len + xs.length, sl.len + xs.length + room⟩]⟩
    | none => s

/-- A program. -/
def run (s : St) (ops : List Op) : St := ops.foldl step s

/-- The program starts with no UUID. -/
def start : St := ⟨[], []⟩

end Gofer.UuidBytes
