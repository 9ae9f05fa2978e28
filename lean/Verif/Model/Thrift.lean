import Verif.Spec.Thrift

/-!
# Model of the Thrift compact protocol (library)

`TCompactProtocol` of github.com/donnie4w/gothrift (a copy of Apache Thrift's Go library), as used by
util/gob.go:45-60. It is not in /repo; modelled from the published source on byte lists. A reader is a
function that consumes a prefix of the bytes or fails (any error). Numbers read by varint are converted
to int32/int16 by wrap-around as in Go. `limit` is the configured maximum size of a string or container.
-/
namespace Gofer.Thrift
open Gofer.Spec.Thrift (TType)

abbrev Bytes := List UInt8

/-! ### Writer -/

/-- `writeVarint32` (library): the loop over the remaining uint32. -/
def writeVarintGo : Nat → Nat → Bytes
  | 0, n => [n.toUInt8]
  | f + 1, n => if n < 128 then [n.toUInt8] else (n % 128 + 128).toUInt8 :: writeVarintGo f (n / 128)

/-- `writeVarint32(int32(n))` (library). -/
def writeVarint32 (n : Nat) : Bytes := writeVarintGo 5 (n % 2 ^ 32)

/-- `WriteFieldBegin` (library), for a non-boolean field; `last` is `lastFieldIDWritten`. -/
def writeFieldBegin (last : Nat) (t : TType) (id : Nat) : Bytes :=
  if id > last ∧ id - last ≤ 15 then [((id - last) * 16 + t.code).toUInt8]
  else t.code.toUInt8 :: writeVarint32 (2 * id)

/-- `WriteFieldStop` (library). -/
def writeFieldStop : Bytes := [0]

/-- `WriteMapBegin` (library). -/
def writeMapBegin (kt vt : TType) (size : Nat) : Bytes :=
  if size = 0 then [0] else writeVarint32 size ++ [(kt.code * 16 + vt.code).toUInt8]

/-- `WriteString` (library). -/
def writeString (s : Bytes) : Bytes := writeVarint32 s.length ++ s

/-- `WriteByte` (library). -/
def writeByte (b : UInt8) : Bytes := [b]

/-! ### Reader -/

/-- `readByteDirect` (library). -/
def readByte : Bytes → Option (UInt8 × Bytes)
  | [] => none
  | b :: r => some (b, r)

/-- `readVarint64` (library), before conversion to a fixed width. -/
def readVarint : Bytes → Option (Nat × Bytes)
  | [] => none
  | b :: r =>
    if b.toNat < 128 then some (b.toNat, r)
    else match readVarint r with
      | some (v, r') => some (b.toNat % 128 + 128 * v, r')
      | none => none

/-- `zigzagToInt32` (library) on the unsigned value. -/
def unzigzag (u : Nat) : Int := if u % 2 = 0 then (u / 2 : Nat) else -((u / 2 + 1 : Nat) : Int)

/-- `ReadI16` (library). -/
def readI16 (bs : Bytes) : Option (Int × Bytes) :=
  match readVarint bs with
  | some (v, r) => some ((unzigzag (v % 2 ^ 32)).bmod (2 ^ 16), r)
  | none => none

/-- A size: `readVarint32` and `checkSizeForProtocol` (library). -/
def readSize (limit : Nat) (bs : Bytes) : Option (Nat × Bytes) :=
  match readVarint bs with
  | some (v, r) =>
    let n := (v : Int).bmod (2 ^ 32)
    if n < 0 ∨ n > limit then none else some (n.toNat, r)
  | none => none

/-- `getTType` (library). -/
def getTType (code : Nat) : Option TType :=
  match code with
  | 1 => some .bool | 2 => some .bool | 3 => some .byte | 4 => some .i16 | 5 => some .i32 | 6 => some .i64
  | 7 => some .double | 8 => some .string | 9 => some .list | 10 => some .set | 11 => some .map
  | 12 => some .struct | _ => none

/-- `ReadFieldBegin` (library); `last` is `lastFieldIDRead`. `none` in the result is STOP. -/
def readFieldBegin (last : Int) (bs : Bytes) : Option (Option (TType × Int) × Bytes) :=
  match readByte bs with
  | none => none
  | some (t, r) =>
    if t.toNat % 16 = 0 then some (none, r)
    else
      match (if t.toNat / 16 = 0 then readI16 r else some ((last + (t.toNat / 16 : Nat)).bmod (2 ^ 16), r)) with
      | none => none
      | some (id, r) =>
        match getTType (t.toNat % 16) with
        | none => none
        | some ty => some (some (ty, id), r)

/-- `ReadString` (library). -/
def readString (limit : Nat) (bs : Bytes) : Option (Bytes × Bytes) :=
  match readSize limit bs with
  | none => none
  | some (n, r) => if r.length < n then none else some (r.take n, r.drop n)

/-- `ReadMapBegin` (library): an empty map has no type byte; an unknown element type is not an error
here. -/
def readMapBegin (limit : Nat) (bs : Bytes) : Option ((Option TType × Option TType × Nat) × Bytes) :=
  match readSize limit bs with
  | none => none
  | some (n, r) =>
    if n = 0 then some ((none, none, 0), r)
    else match readByte r with
      | none => none
      | some (kv, r) => some ((getTType (kv.toNat / 16), getTType (kv.toNat % 16), n), r)

/-- `ReadListBegin`/`ReadSetBegin` (library). -/
def readListBegin (limit : Nat) (bs : Bytes) : Option ((TType × Nat) × Bytes) :=
  match readByte bs with
  | none => none
  | some (st, r) =>
    match (if st.toNat / 16 = 15 then readSize limit r else
        if st.toNat / 16 > limit then none else some (st.toNat / 16, r)) with
    | none => none
    | some (n, r) =>
      match getTType (st.toNat % 16) with
      | none => none
      | some t => some ((t, n), r)

/-- Read exactly `n` bytes. -/
def skipBytes (n : Nat) (bs : Bytes) : Option Bytes := if bs.length < n then none else some (bs.drop n)

/-- `n` times. -/
def repeatN (f : Bytes → Option Bytes) : Nat → Bytes → Option Bytes
  | 0, bs => some bs
  | n + 1, bs => match f bs with
    | some r => repeatN f n r
    | none => none

/-- The loop of `Skip` over the fields of a struct (library). Every round consumes a byte, so the number
of bytes bounds the number of rounds (`fuel`). -/
def skipFields (sk : TType → Bool → Bytes → Option Bytes) : Nat → Int → Bytes → Option Bytes
  | 0, _, _ => none
  | fuel + 1, last, bs =>
    match readFieldBegin last bs with
    | none => none
    | some (none, r) => some r
    | some (some (t, id), r) =>
      match sk t (t = .bool) r with
      | none => none
      | some r => skipFields sk fuel id r

/-- `Skip(self, fieldType, maxDepth)` (library). `pending` says that a boolean's value was in the field
header. An unknown element type cannot be skipped. -/
def skip (limit : Nat) : Nat → Option TType → Bool → Bytes → Option Bytes
  | 0, _, _, _ => none
  | d + 1, t, pending, bs =>
    match t with
    | none => none
    | some .bool => if pending then some bs else skipBytes 1 bs
    | some .byte => skipBytes 1 bs
    | some .i16 => (readVarint bs).map Prod.snd
    | some .i32 => (readVarint bs).map Prod.snd
    | some .i64 => (readVarint bs).map Prod.snd
    | some .double => skipBytes 8 bs
    | some .string => (readString limit bs).map Prod.snd
    | some .struct => skipFields (fun t p => skip limit d (some t) p) (bs.length + 1) 0 bs
    | some .map =>
      match readMapBegin limit bs with
      | none => none
      | some ((kt, vt, n), r) =>
        repeatN (fun b => match skip limit d kt false b with
          | some b => skip limit d vt false b
          | none => none) n r
    | some .list =>
      match readListBegin limit bs with
      | none => none
      | some ((t, n), r) => repeatN (skip limit d (some t) false) n r
    | some .set =>
      match readListBegin limit bs with
      | none => none
      | some ((t, n), r) => repeatN (skip limit d (some t) false) n r

/-- `DEFAULT_RECURSION_DEPTH` (library). -/
def maxDepth : Nat := 64

end Gofer.Thrift
