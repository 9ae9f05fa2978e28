import Verif.Model.Thrift
import Verif.Spec.ThriftStruct

/-!
# Model of `TEncode`/`TDecode` on any generated struct

/repo/thrift/serialize.go:19-34 and util/gob.go:45-60: `ts.Write` and `ts.Read` of a struct generated by the Thrift
compiler, over the compact protocol of `Model/Thrift`. The generated code is modelled from the published generator
(keystore/store.go of /repo is an instance of it): fields in the order of their ids; required fields and fields
without keyword always written, optional ones if set; on reading, fields of unknown id or other type skipped, required
fields checked at the end. Values are the types of `Spec/ThriftStruct`.

Simplified: field ids are positive; optional fields have no default values; the pointers to structs in lists and maps
are not nil; keys of maps and elements of sets are booleans, integers or strings; the decoded struct starts empty;
`d` bounds the nesting of the structs that a reader builds, which the code does not do.
-/
namespace Gofer.ThriftStruct
open Gofer.Spec.Thrift (TType)
open Gofer.Spec.ThriftStruct
open Gofer.Thrift hiding Bytes

/-! ### Writer -/

/-- `int32ToZigzag`, `int64ToZigzag` (library) on the mathematical integer. -/
def toZigzag (z : Int) : Nat := if z < 0 then (-z).toNat * 2 - 1 else z.toNat * 2

/-- `WriteI16`, `WriteI32` (library). -/
def writeI32 (z : Int) : Bytes := writeVarint32 (toZigzag z)

/-- `WriteI64` (library): `writeVarint64` of the zigzag. -/
def writeI64 (z : Int) : Bytes := writeVarintGo 10 (toZigzag z % 2 ^ 64)

/-- `WriteDouble` (library): `binary.LittleEndian.PutUint64`. -/
def writeDouble (x : BitVec 64) : Bytes :=
  (List.range 8).map fun i => (x.toNat / 256 ^ i).toUInt8

/-- `WriteListBegin`, `WriteSetBegin`: `writeCollectionBegin` (library). -/
def writeListBegin (t : TType) (size : Nat) : Bytes :=
  if size ≤ 14 then [(size * 16 + t.code).toUInt8] else (0xf0 + t.code).toUInt8 :: writeVarint32 size

/-- `WriteFieldBegin` and `WriteBool` (library): the header with the value in it. -/
def writeBoolField (last id : Nat) (b : Bool) : Bytes :=
  let code := if b then 1 else 2
  if id > last ∧ id - last ≤ 15 then [((id - last) * 16 + code).toUInt8]
  else code.toUInt8 :: writeVarint32 (2 * id)

/-- `==` on values of a type. -/
def eqb {A : Type} [DecidableEq A] (a b : A) : Bool := decide (a = b)

/-- `==` on values that Go can compare (generated code). -/
def same {W : Nat → Type} : (t : Ty) → Val W t → Val W t → Bool
  | .bool, a, b => eqb (A := Bool) a b
  | .byte, a, b => eqb (A := UInt8) a b
  | .i16, a, b => eqb (A := BitVec 16) a b
  | .i32, a, b => eqb (A := BitVec 32) a b
  | .i64, a, b => eqb (A := BitVec 64) a b
  | .str, a, b => eqb (A := List UInt8) a b
  | _, _, _ => false

/-- The two loops over a set before it is written (generated code): is some element there twice? -/
def twice {A : Type} (eq : A → A → Bool) : List A → Bool
  | [] => false
  | a :: l => l.any (eq a) || twice eq l

/-- The rest is written only if there was no error; the error is in the second component. -/
def andThen (a : Bytes × Bool) (b : Bytes × Bool) : Bytes × Bool :=
  if a.2 then (a.1 ++ b.1, b.2) else (a.1, false)

/-- Element after element. -/
def writeAll {A : Type} (f : A → Bytes × Bool) : List A → Bytes × Bool
  | [] => ([], true)
  | a :: l => andThen (f a) (writeAll f l)

/-- A value (generated code); false: an error was returned after these bytes. -/
def writeVal {W : Nat → Type} (wr : (n : Nat) → W n → Bytes × Bool) : (t : Ty) → Val W t → Bytes × Bool
  | .bool, b => ([if (show Bool from b) then 1 else 2], true)
  | .byte, b => ([b], true)
  | .i16, x => (writeI32 (BitVec.toInt (n := 16) x), true)
  | .i32, x => (writeI32 (BitVec.toInt (n := 32) x), true)
  | .i64, x => (writeI64 (BitVec.toInt (n := 64) x), true)
  | .double, x => (writeDouble x, true)
  | .str, s => (writeString s, true)
  | .list t, l =>
    let l : List (Val W t) := l
    andThen (writeListBegin t.ttype l.length, true) (writeAll (writeVal wr t) l)
  | .set t, l =>
    let l : List (Val W t) := l
    andThen (writeListBegin t.ttype l.length, !twice (same t) l) (writeAll (writeVal wr t) l)
  | .map k v, l =>
    let l : List (Val W k × Val W v) := l
    andThen (writeMapBegin k.ttype v.ttype l.length, true)
      (writeAll (fun e => andThen (writeVal wr k e.1) (writeVal wr v e.2)) l)
  | .struct n, w => wr n w

/-- `writeFieldN` (generated code): header and value. -/
def writeField {W : Nat → Type} (wr : (n : Nat) → W n → Bytes × Bool) (last id : Nat) : (t : Ty) → Val W t → Bytes × Bool
  | .bool, b => (writeBoolField last id b, true)
  | t, v => andThen (writeFieldBegin last t.ttype id, true) (writeVal wr t v)

/-- The fields from some field on, after the field `last`, and the stop byte (generated `Write`). A field that is not
set is not written. -/
def writeSlots {W : Nat → Type} (wr : (n : Nat) → W n → Bytes × Bool) (last : Nat) : (fs : List Field) → Slots W fs → Bytes × Bool
  | [], _ => (writeFieldStop, true)
  | f :: fs, s => match s.1 with
    | some v => andThen (writeField wr last f.id f.ty v) (writeSlots wr f.id fs s.2)
    | none => writeSlots wr last fs s.2

/-- Generated `Write`. -/
def writeStruct (T : Schema) : (d n : Nat) → Struct T d n → Bytes × Bool
  | 0, _, e => nomatch e
  | d + 1, n, s => writeSlots (writeStruct T d) 0 (T n) s

/-- `TEncode` (thrift/serialize.go:19-26, util/gob.go:45-52): the error of `Write` is dropped. -/
def tEncode (T : Schema) (d n : Nat) (v : Struct T d n) : Bytes := (writeStruct T d n v).1

/-! ### Reader -/

/-- `ReadI32` (library). -/
def readI32 (bs : Bytes) : Option (BitVec 32 × Bytes) :=
  match readVarint bs with
  | some (v, r) => some (BitVec.ofInt 32 (unzigzag (v % 2 ^ 32)), r)
  | none => none

/-- `ReadI64` (library). -/
def readI64 (bs : Bytes) : Option (BitVec 64 × Bytes) :=
  match readVarint bs with
  | some (v, r) => some (BitVec.ofInt 64 (unzigzag (v % 2 ^ 64)), r)
  | none => none

/-- `binary.LittleEndian.Uint64` on the bytes. -/
def fromLE : Bytes → Nat
  | [] => 0
  | b :: r => b.toNat + 256 * fromLE r

/-- `ReadDouble` (library). -/
def readDouble (bs : Bytes) : Option (BitVec 64 × Bytes) :=
  if bs.length < 8 then none else some (BitVec.ofNat 64 (fromLE (bs.take 8)), bs.drop 8)

/-- `ReadFieldBegin` (library), with the value that `ReadBool` takes out of the header. -/
def readHeader (last : Int) (bs : Bytes) : Option (Option (TType × Int × Bool) × Bytes) :=
  match readFieldBegin last bs with
  | some (some (t, id), r) => some (some (t, id, bs.head?.any fun b => b.toNat % 16 = 1), r)
  | some (none, r) => some (none, r)
  | none => none

/-- Element after element, appended to a slice (generated code). -/
def readN {A : Type} (f : Bytes → Option (A × Bytes)) : Nat → Bytes → Option (List A × Bytes)
  | 0, bs => some ([], bs)
  | n + 1, bs => match f bs with
    | none => none
    | some (a, r) => match readN f n r with
      | none => none
      | some (l, r) => some (a :: l, r)

/-- `m[k] = v` on a Go map. -/
def assign {K A : Type} (eq : K → K → Bool) (k : K) (v : A) : List (K × A) → List (K × A)
  | [] => [(k, v)]
  | e :: l => if eq k e.1 then (e.1, v) :: l else e :: assign eq k v l

/-- Entry after entry, put into the map (generated code). -/
def readEntries {K A : Type} (eq : K → K → Bool) (fk : Bytes → Option (K × Bytes)) (fv : Bytes → Option (A × Bytes)) :
    Nat → List (K × A) → Bytes → Option (List (K × A) × Bytes)
  | 0, m, bs => some (m, bs)
  | n + 1, m, bs => match fk bs with
    | none => none
    | some (k, r) => match fv r with
      | none => none
      | some (v, r) => readEntries eq fk fv n (assign eq k v m) r

/-- A value (generated code). The element types in the headers are not looked at. -/
def readVal {W : Nat → Type} (rd : (n : Nat) → Bytes → Option (W n × Bytes)) (limit : Nat) : (t : Ty) → Bytes → Option (Val W t × Bytes)
  | .bool, bs => (match readByte bs with
    | some (b, r) => some (decide (b = 1), r)
    | none => none : Option (Bool × Bytes))
  | .byte, bs => readByte bs
  | .i16, bs => (match readI16 bs with
    | some (z, r) => some (BitVec.ofInt 16 z, r)
    | none => none : Option (BitVec 16 × Bytes))
  | .i32, bs => readI32 bs
  | .i64, bs => readI64 bs
  | .double, bs => readDouble bs
  | .str, bs => readString limit bs
  | .list t, bs => (match readListBegin limit bs with
    | none => none
    | some ((_, n), r) => readN (readVal rd limit t) n r : Option (List (Val W t) × Bytes))
  | .set t, bs => (match readListBegin limit bs with
    | none => none
    | some ((_, n), r) => readN (readVal rd limit t) n r : Option (List (Val W t) × Bytes))
  | .map k v, bs => (match readMapBegin limit bs with
    | none => none
    | some ((_, _, n), r) => readEntries (same k) (readVal rd limit k) (readVal rd limit v) n [] r :
      Option (List (Val W k × Val W v) × Bytes))
  | .struct n, bs => rd n bs

/-- `ReadFieldN` (generated code): a boolean comes from the header. -/
def readField {W : Nat → Type} (rd : (n : Nat) → Bytes → Option (W n × Bytes)) (limit : Nat) (b : Bool) :
    (t : Ty) → Bytes → Option (Val W t × Bytes)
  | .bool, bs => some (b, bs)
  | t, bs => readVal rd limit t bs

/-- The `switch fieldId` of the generated `Read`: `some none` if there is no such field or it has another type. -/
def readSlot {W : Nat → Type} (rd : (n : Nat) → Bytes → Option (W n × Bytes)) (limit : Nat) (id : Int) (t : TType) (b : Bool) (bs : Bytes) :
    (fs : List Field) → Slots W fs → Option (Option (Slots W fs × Bytes))
  | [], _ => some none
  | f :: fs, s =>
    if (f.id : Int) = id then
      if f.ty.ttype = t then
        match readField rd limit b f.ty bs with
        | none => none
        | some (v, r) => some (some ((some v, s.2), r))
      else some none
    else
      match readSlot rd limit id t b bs fs s.2 with
      | none => none
      | some none => some none
      | some (some (s', r)) => some (some ((s.1, s'), r))

/-- The loop of the generated `Read`; every round consumes a byte (`fuel`). -/
def readSlots {W : Nat → Type} (rd : (n : Nat) → Bytes → Option (W n × Bytes)) (limit : Nat) (fs : List Field) :
    Nat → Int → Slots W fs → Bytes → Option (Slots W fs × Bytes)
  | 0, _, _, _ => none
  | fuel + 1, last, s, bs =>
    match readHeader last bs with
    | none => none
    | some (none, r) => some (s, r)
    | some (some (t, id, b), r) =>
      match readSlot rd limit id t b r fs s with
      | none => none
      | some (some (s, r)) => readSlots rd limit fs fuel id s r
      | some none =>
        match skip limit maxDepth (some t) (t = .bool) r with
        | none => none
        | some r => readSlots rd limit fs fuel id s r

/-- A struct just allocated, with nothing assigned. -/
def noSlots (W : Nat → Type) : (fs : List Field) → Slots W fs
  | [] => ()
  | _ :: fs => (none, noSlots W fs)

/-- The end of the generated `Read`: an error if a required field was not sent; a field that is not a pointer then has
its zero value. -/
def finish {W : Nat → Type} : (fs : List Field) → Slots W fs → Option (Slots W fs)
  | [], s => some s
  | f :: fs, s =>
    match finish fs s.2 with
    | none => none
    | some r => match s.1, f.req with
      | some v, _ => some (some v, r)
      | none, .required => none
      | none, .optional => some (none, r)
      | none, .default => some (zero W f.ty, r)

/-- Generated `Read`. -/
def readStruct (T : Schema) (limit : Nat) : (d n : Nat) → Bytes → Option (Struct T d n × Bytes)
  | 0, _, _ => none
  | d + 1, n, bs =>
    match readSlots (readStruct T limit d) limit (T n) (bs.length + 1) 0 (noSlots _ (T n)) bs with
    | none => none
    | some (s, r) => match finish (T n) s with
      | none => none
      | some s => some (s, r)

/-- `TDecode` (thrift/serialize.go:28-33, util/gob.go:54-60); bytes after the struct are not looked at. -/
def tDecode (T : Schema) (limit d n : Nat) (bs : Bytes) : Option (Struct T d n) :=
  (readStruct T limit d n bs).map Prod.fst

end Gofer.ThriftStruct
