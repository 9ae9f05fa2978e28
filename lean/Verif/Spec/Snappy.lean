/-!
# The Snappy block format

A block is its length as a varint and a sequence of elements: literal bytes, or a copy of earlier output.
-/
namespace Gofer.Spec.Snappy

abbrev Bytes := List UInt8

/-- An element. -/
inductive Elem where
  | lit (bs : Bytes)
  | copy (off len : Nat)

/-- `len` further bytes, each the one `off` bytes back. -/
def back (off : Nat) : Nat → Bytes → Bytes
  | 0, out => out
  | n + 1, out => back off n (out ++ [out.getD (out.length - off) 0])

/-- What the elements stand for, after the output `out`. -/
def expand : List Elem → Bytes → Bytes
  | [], out => out
  | .lit bs :: es, out => expand es (out ++ bs)
  | .copy off len :: es, out => expand es (back off len out)

/-- Copies go back at most to the beginning. -/
def Valid : List Elem → Bytes → Prop
  | [], _ => True
  | .lit bs :: es, out => Valid es (out ++ bs)
  | .copy off len :: es, out => 1 ≤ off ∧ off ≤ out.length ∧ Valid es (back off len out)

/-- `k` bytes, the low ones first. -/
def le : Nat → Nat → Bytes
  | 0, _ => []
  | k + 1, n => (n % 256).toUInt8 :: le k (n / 256)

/-- The ways to write an element. -/
inductive Writes : Elem → Bytes → Prop where
  | short (bs : Bytes) : 1 ≤ bs.length → bs.length ≤ 60 → Writes (.lit bs) ((4 * (bs.length - 1)).toUInt8 :: bs)
  | long (k : Nat) (bs : Bytes) : 1 ≤ k → k ≤ 4 → 1 ≤ bs.length → bs.length ≤ 256 ^ k →
      Writes (.lit bs) ((4 * (59 + k)).toUInt8 :: (le k (bs.length - 1) ++ bs))
  | copy1 (off len : Nat) : off < 2048 → 4 ≤ len → len ≤ 11 → Writes (.copy off len) [(1 + 4 * (len - 4) + 32 * (off / 256)).toUInt8, (off % 256).toUInt8]
  | copy2 (off len : Nat) : off < 65536 → 1 ≤ len → len ≤ 64 → Writes (.copy off len) ((2 + 4 * (len - 1)).toUInt8 :: le 2 off)
  | copy4 (off len : Nat) : off < 2 ^ 32 → 1 ≤ len → len ≤ 64 → Writes (.copy off len) ((3 + 4 * (len - 1)).toUInt8 :: le 4 off)

/-- The ways to write a sequence of elements. -/
inductive WritesAll : List Elem → Bytes → Prop where
  | nil : WritesAll [] []
  | cons {e es b bs} : Writes e b → WritesAll es bs → WritesAll (e :: es) (b ++ bs)

/-- A varint: seven bits a byte, the low ones first, the top bit set on all but the last. -/
def varint (n : Nat) : Bytes :=
  if h : n < 128 then [n.toUInt8] else (128 + n % 128).toUInt8 :: varint (n / 128)
termination_by n
decreasing_by omega

/-- A block for `x`. The length may be written with needless zero digits; `Block` has the shortest form. -/
def Block (x block : Bytes) : Prop :=
  ∃ es b, x.length < 2 ^ 32 ∧ WritesAll es b ∧ Valid es [] ∧ expand es [] = x ∧ block = varint x.length ++ b

/-! ### The extension of package s2: repeats

A copy in the two-byte form with offset 0 stands for a copy with the offset of the copy before, and has its length in up to three more bytes. -/

/-- The ways to write an element, after a copy with offset `last`. -/
inductive Writes2 (last : Nat) : Elem → Bytes → Prop where
  | plain {e : Elem} {b : Bytes} : Writes e b → Writes2 last e b
  | rep0 (len : Nat) : 4 ≤ len → len ≤ 8 → Writes2 last (.copy last len) [(1 + 4 * (len - 4)).toUInt8, 0]
  | rep1 (len : Nat) : 8 ≤ len → len < 8 + 256 → Writes2 last (.copy last len) (21 :: 0 :: le 1 (len - 8))
  | rep2 (len : Nat) : 260 ≤ len → len < 260 + 65536 → Writes2 last (.copy last len) (25 :: 0 :: le 2 (len - 260))
  | rep3 (len : Nat) : 65540 ≤ len → len < 65540 + 16777216 → Writes2 last (.copy last len) (29 :: 0 :: le 3 (len - 65540))

/-- The offset of the last copy. -/
def lastOff (last : Nat) : Elem → Nat
  | .lit _ => last
  | .copy off _ => off

/-- The ways to write a sequence of elements, with repeats. -/
inductive WritesAll2 : Nat → List Elem → Bytes → Prop where
  | nil {last} : WritesAll2 last [] []
  | cons {last e es b bs} : Writes2 last e b → WritesAll2 (lastOff last e) es bs → WritesAll2 last (e :: es) (b ++ bs)

end Gofer.Spec.Snappy
