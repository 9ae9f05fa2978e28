/-!
# What a byte buffer is

A buffer is a byte string: writes append to it, `Reset` empties it, reads take from the front. `none` is a nil
`*Buffer`.
-/
namespace Gofer.Spec.Buffer

/-- The calls. `read k` is a `Read` into a new slice of `k` bytes. -/
inductive Op where
  | write (p : List UInt8)
  | writeString (p : List UInt8)
  | writeInt32 (i : BitVec 64)
  | writeByte (c : UInt8)
  | reset
  | bytes
  | string
  | len
  | read (k : Nat)
deriving DecidableEq

/-- What a call returns. `read data eof` is `(len(data), io.EOF or nil)` with `data` stored. -/
inductive Res where
  | count (n : Nat) (err : Bool)
  | done (err : Bool)
  | data (d : List UInt8)
  | read (d : List UInt8) (eof : Bool)
  | panic
deriving DecidableEq

/-- Big-endian bytes of the low 32 bits. -/
def be32 (i : BitVec 64) : List UInt8 :=
  [(i.toNat / 16777216).toUInt8, (i.toNat / 65536).toUInt8, (i.toNat / 256).toUInt8, i.toNat.toUInt8]

/-- What a write appends. -/
def Op.payload : Op → List UInt8
  | .write p => p
  | .writeString p => p
  | .writeInt32 i => be32 i
  | .writeByte c => [c]
  | _ => []

/-- One call on a buffer holding `c`. A read takes the first `k` bytes off; on an empty buffer it reports the end. -/
def step (c : List UInt8) : Op → List UInt8 × Res
  | .write p => (c ++ p, .count p.length false)
  | .writeString p => (c ++ p, .count p.length false)
  | .writeInt32 i => (c ++ be32 i, .count 4 false)
  | .writeByte b => (c ++ [b], .done false)
  | .reset => ([], .done false)
  | .bytes => (c, .data c)
  | .string => (c, .data c)
  | .len => (c, .count c.length false)
  | .read k => (c.drop k, .read (c.take k) (c == [] && k != 0))

/-- A history: final contents and the results. -/
def run (c : List UInt8) : List Op → List UInt8 × List Res
  | [] => (c, [])
  | o :: os =>
    let (c1, r) := step c o
    let (c2, rs) := run c1 os
    (c2, r :: rs)

end Gofer.Spec.Buffer
