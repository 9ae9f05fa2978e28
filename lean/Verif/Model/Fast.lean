import Verif.Model.GoSlice
/-!
# Strings and byte slices that share memory (fast/fast.go)

A program works with strings and byte slices. A string is a window of an array that the language never writes to (a literal: of an array the operating system protects);
`fast.StringToSlice` makes a slice of the same array.
-/
namespace Gofer.Fast
open Gofer.GoSlice

/-- A string value: a window of an array. -/
structure Str where
  arr : Nat
  off : Nat
  len : Nat
deriving DecidableEq

/-- The strings and slices a program has made, in the order in which it made them. Arrays with a number below `lits` hold the literals and cannot be written. -/
structure St where
  heap : Heap
  lits : Nat
  strs : List Str
  sls : List Slice
  dead : Bool := false

/-- The bytes of a string. -/
def Str.bytes (h : Heap) (s : Str) : List UInt8 := ((h.get s.arr).drop s.off).take s.len

/-- `StringToSlice(s)` (fast/fast.go:15-17): `unsafe.Slice(unsafe.StringData(s), len(s))`, so the capacity is the length. -/
def stringToSlice (s : Str) : Slice := ⟨s.arr, s.off, s.len, s.len⟩

/-- What a program does; numbers are those of the strings and slices made so far. -/
inductive Op where
  /-- `fast.StringToSlice(s)` -/
  | view (s : Nat)
  /-- `[]byte(s)` -/
  | copy (s : Nat)
  /-- `string(b)` -/
  | text (b : Nat)
  /-- `s[i:j]` -/
  | cut (s i j : Nat)
  /-- `s + t` -/
  | join (s t : Nat)
  /-- `b[i:j]` -/
  | slice (b i j : Nat)
  /-- `append(b, bs...)`; `extra` spare bytes if a new array is needed -/
  | append (b : Nat) (bs : List UInt8) (extra : Nat)
  /-- `b[i] = v` -/
  | put (b i : Nat) (v : UInt8)
deriving DecidableEq

/-- A new string variable, a new slice variable. -/
def St.addStr (s : St) (t : Str) : St := { s with strs := s.strs ++ [t] }
def St.addSl (s : St) (t : Slice) : St := { s with sls := s.sls ++ [t] }

/-- A new string variable with a new array. -/
def St.newStr (s : St) (bs : List UInt8) : St := { s with heap := (s.heap.alloc bs).1, strs := s.strs ++ [⟨s.heap.arrays.length, 0, bs.length⟩] }

/-- The zero values: "" and nil. -/
def noStr : Str := ⟨0, 0, 0⟩
def noSl : Slice := ⟨0, 0, 0, 0⟩

/-- The variables with a number. -/
def St.str (s : St) (i : Nat) : Str := s.strs.getD i noStr
def St.sl (s : St) (i : Nat) : Slice := s.sls.getD i noSl

/-- One operation; all but `put` set a new variable. An index out of range panics; the program recovers and goes on, and the variable has its zero value. A write to a
literal ends the program (`fatal error: fault`, which cannot be recovered). -/
def step (s : St) (op : Op) : St :=
  if s.dead then s else
  match op with
  | .view i => s.addSl (stringToSlice (s.str i))
  | .copy i => { s with heap := (s.heap.alloc ((s.str i).bytes s.heap)).1,
                        sls := s.sls ++ [⟨s.heap.arrays.length, 0, ((s.str i).bytes s.heap).length, ((s.str i).bytes s.heap).length⟩] }
  | .text b => s.newStr (bytes s.heap (s.sl b))
  | .cut i a b => s.addStr (if a ≤ b ∧ b ≤ (s.str i).len then ⟨(s.str i).arr, (s.str i).off + a, b - a⟩ else noStr)
  | .join i j => s.newStr ((s.str i).bytes s.heap ++ (s.str j).bytes s.heap)
  | .slice i a b => s.addSl (if a ≤ b ∧ b ≤ (s.sl i).cap then ⟨(s.sl i).arr, (s.sl i).off + a, b - a, (s.sl i).cap - a⟩ else noSl)
  | .append i bs extra =>
    if (s.sl i).arr < s.lits ∧ (s.sl i).len + bs.length ≤ (s.sl i).cap ∧ bs ≠ [] then { s with dead := true }
    else { s with heap := (GoSlice.append s.heap (s.sl i) bs extra).1, sls := s.sls ++ [(GoSlice.append s.heap (s.sl i) bs extra).2] }
  | .put i k v =>
    if (s.sl i).len ≤ k then s
    else if (s.sl i).arr < s.lits then { s with dead := true }
    else { s with heap := s.heap.write (s.sl i).arr ((s.sl i).off + k) [v] }

/-- A program. -/
def run (s : St) (ops : List Op) : St := ops.foldl step s

/-- The literals of a program. -/
def start (lits : List (List UInt8)) : St := ⟨⟨lits⟩, lits.length, (List.range lits.length).map fun i => ⟨i, 0, (lits.getD i []).length⟩, [], false⟩

end Gofer.Fast
