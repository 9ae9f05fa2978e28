import Verif.Spec.Proto
import Verif.Model.Json

/-!
# Model of util/protobuf.go

`Marshal` and `Unmarshal` (util/protobuf.go:16-23) with google.golang.org/protobuf v1.36.7 (library; not in /repo,
written from knowledge of its published source: encoding/protowire/wire.go, internal/impl/encode.go, decode.go, codec_gen.go,
codec_field.go, proto/encode.go, decode.go).

A message is the content of its Go struct (`Spec.Proto.Body`): a scalar field without presence that is zero has no
value. Not modelled: maps, oneofs, fields declared as groups, required fields, extensions, message sets, closed enums
and lazy decoding. Any error is `none`; the library cuts the bytes into fields and stores each at once, here the bytes
are cut first, which makes no difference since after an error the message is not looked at.
-/
namespace Gofer.Proto
open Gofer.Spec.Proto

/-! ### encoding/protowire -/

/-- `protowire.AppendVarint` (library; for util/protobuf.go:17), the loop. -/
def putVarintGo : Nat → Nat → Bytes
  | 0, n => [n.toUInt8]
  | f + 1, n => if n < 128 then [n.toUInt8] else (n % 128 + 128).toUInt8 :: putVarintGo f (n / 128)

/-- `protowire.AppendVarint` (library; for util/protobuf.go:17): ten bytes at most. -/
def putVarint (n : Nat) : Bytes := putVarintGo 9 n

/-- `protowire.ConsumeVarint` (library; for util/protobuf.go:22), with `i` bytes allowed before the tenth one, which
must be 0 or 1. -/
def takeVarintGo : Nat → Bytes → Option (Nat × Bytes)
  | _, [] => none
  | 0, b :: r => if b < 2 then some (b.toNat, r) else none
  | i + 1, b :: r =>
    if b < 128 then some (b.toNat, r)
    else match takeVarintGo i r with
      | none => none
      | some (n, r') => some (b.toNat - 128 + 128 * n, r')

/-- `protowire.ConsumeVarint` (library; for util/protobuf.go:22). -/
def takeVarint (bs : Bytes) : Option (Nat × Bytes) := takeVarintGo 9 bs

/-- `protowire.AppendTag` (library; for util/protobuf.go:17): the number and the wire type. -/
def putTag (num wt : Nat) : Bytes := putVarint (8 * num + wt)

/-- `protowire.AppendFixed32`, `AppendFixed64` (library; for util/protobuf.go:17): low byte first. -/
def putLE : Nat → Nat → Bytes
  | 0, _ => []
  | n + 1, x => (x % 256).toUInt8 :: putLE n (x / 256)

/-- The number of these bytes, low byte first (`ConsumeFixed32`, `ConsumeFixed64`, library; for
util/protobuf.go:22). -/
def getLE : Bytes → Nat
  | [] => 0
  | b :: r => b.toNat + 256 * getLE r

/-- The value of a field as found in the bytes. -/
inductive Wire
  | varint (v : BitVec 64)
  | f64 (v : BitVec 64)
  | bytes (b : Bytes)
  | group
  | f32 (v : BitVec 64)

/-- The wire type (protowire/wire.go, `VarintType` …; for util/protobuf.go:22). -/
def Wire.type : Wire → Nat
  | .varint _ => 0
  | .f64 _ => 1
  | .bytes _ => 2
  | .group => 3
  | .f32 _ => 5

/-- `ConsumeVarint`, `ConsumeFixed64`, `ConsumeBytes`, `ConsumeFixed32` (library; for util/protobuf.go:22), by the
wire type. -/
def takeScalar (wt : Nat) (bs : Bytes) : Option (Wire × Bytes) :=
  if wt = 0 then
    match takeVarint bs with
    | none => none
    | some (n, r) => some (.varint (BitVec.ofNat 64 n), r)
  else if wt = 1 then if bs.length < 8 then none else some (.f64 (BitVec.ofNat 64 (getLE (bs.take 8))), bs.drop 8)
  else if wt = 2 then
    match takeVarint bs with
    | none => none
    | some (n, r) => if r.length < n then none else some (.bytes (r.take n), r.drop n)
  else if wt = 5 then if bs.length < 4 then none else some (.f32 (BitVec.ofNat 64 (getLE (bs.take 4))), bs.drop 4)
  else none

/-- `consumeFieldValueD` for a group (library; for util/protobuf.go:22): everything up to the end tag with the same
number; `depth` more groups may be nested. Every round takes a byte, so the length of the bytes is enough for `fuel`. -/
def skipGroup : Nat → Nat → Nat → Bytes → Option Bytes
  | 0, _, _, _ => none
  | fuel + 1, depth, num, bs =>
    match takeVarint bs with
    | none => none
    | some (tag, r) =>
      if tag / 8 < 1 ∨ 2 ^ 31 ≤ tag / 8 then none
      else if tag % 8 = 4 then if tag / 8 = num then some r else none
      else if tag % 8 = 3 then
        match depth with
        | 0 => none
        | depth' + 1 =>
          match skipGroup fuel depth' (tag / 8) r with
          | none => none
          | some r' => skipGroup fuel (depth' + 1) num r'
      else
        match takeScalar (tag % 8) r with
        | none => none
        | some (_, r') => skipGroup fuel depth num r'

/-- `protowire.ConsumeFieldValue` (library; for util/protobuf.go:22); `DefaultRecursionLimit` is 10000. -/
def takeValue (num wt : Nat) (bs : Bytes) : Option (Wire × Bytes) :=
  if wt = 3 then
    match skipGroup bs.length 10000 num bs with
    | none => none
    | some r => some (.group, r)
  else takeScalar wt bs

/-- A field in the bytes: its number, its value and the bytes after the tag. -/
structure Rec where
  num : Nat
  wire : Wire
  raw : Bytes

/-- The tag and the value at the beginning of the bytes (internal/impl/decode.go, `unmarshalPointer`, library; for
util/protobuf.go:22): field numbers from 1 to 2^29 - 1; an end of group is refused. -/
def takeField (bs : Bytes) : Option (Rec × Bytes) :=
  match takeVarint bs with
  | none => none
  | some (tag, r) =>
    if tag / 8 < 1 ∨ 2 ^ 29 ≤ tag / 8 then none
    else match takeValue (tag / 8) (tag % 8) r with
      | none => none
      | some (w, r') => some (⟨tag / 8, w, r.take (r.length - r'.length)⟩, r')

/-- The loop of `unmarshalPointer` (library; for util/protobuf.go:22). -/
def recordsGo : Nat → Bytes → Option (List Rec)
  | _, [] => some []
  | 0, _ :: _ => none
  | f + 1, b :: bs =>
    match takeField (b :: bs) with
    | none => none
    | some (r, rest) =>
      match recordsGo f rest with
      | none => none
      | some rs => some (r :: rs)

/-- The fields in the bytes (library; for util/protobuf.go:22). -/
def records (bs : Bytes) : Option (List Rec) := recordsGo bs.length bs

/-! ### Values -/

/-- `protowire.EncodeZigZag` (library; for util/protobuf.go:17). -/
def zigzag (x : BitVec 64) : BitVec 64 := (x <<< 1) ^^^ (x.sshiftRight 63)

/-- `protowire.DecodeZigZag` (library; for util/protobuf.go:22). -/
def unzigzag (x : BitVec 64) : BitVec 64 := (x >>> 1) ^^^ -(x &&& 1)

/-- codec_gen.go, `appendInt32`, `appendSint32`, `appendBool` … (library; for util/protobuf.go:17): the number that is
written. -/
def toWire : VarKind → BitVec 64 → BitVec 64
  | .sint32, x | .sint64, x => zigzag x
  | _, x => x

/-- codec_gen.go, `consumeInt32`, `consumeSint32`, `consumeBool` … (library; for util/protobuf.go:22): the conversions
of the number that was read. -/
def ofWire : VarKind → BitVec 64 → BitVec 64
  | .int32, v => (v.setWidth 32).signExtend 64
  | .uint32, v => (v.setWidth 32).setWidth 64
  | .sint32, v => ((unzigzag (v &&& 0xFFFFFFFF)).setWidth 32).signExtend 64
  | .sint64, v => unzigzag v
  | .bool, v => if v = 0 then 0 else 1
  | .int64, v | .uint64, v => v

/-- The wire type of a kind (internal/impl/codec_field.go, library; for util/protobuf.go:17). -/
def wireType : Kind → Nat
  | .varint _ => 0
  | .fixed64 => 1
  | .fixed32 => 5
  | .string | .bytes | .msg _ => 2

/-- The bytes of a number (codec_gen.go, library; for util/protobuf.go:17). -/
def putNum (k : Kind) (x : BitVec 64) : Bytes :=
  match k with
  | .varint v => putVarint (toWire v x).toNat
  | .fixed32 => putLE 4 x.toNat
  | .fixed64 => putLE 8 x.toNat
  | _ => []

/-- `utf8.Valid`, `utf8.ValidString` (library; for util/protobuf.go:17,22). -/
def validGo : Nat → Bytes → Bool
  | _, [] => true
  | 0, _ :: _ => false
  | f + 1, b :: s =>
    if b < 128 then validGo f s
    else if (Json.decodeRune (b :: s)).2 = 1 then false
    else validGo f ((b :: s).drop (Json.decodeRune (b :: s)).2)

/-- `utf8.ValidString` (library; for util/protobuf.go:17,22). -/
def valid (s : Bytes) : Bool := validGo s.length s

/-! ### Marshal -/

/-- One value with its tag (codec_gen.go, `appendStringValidateUTF8` …; codec_field.go, `appendMessageInfo`, library;
for util/protobuf.go:17): the bytes written and whether there was no error. A string is written before it is found not
to be UTF-8; the length of a message is that of its complete encoding (`sizeW`). -/
def putVal {W : Type} (check : Bool) (sizeW : Nat → W → Nat) (encW : Nat → W → Bytes × Bool) (f : Field) :
    Val W → Bytes × Bool
  | .num x => (putTag f.num (wireType f.kind) ++ putNum f.kind x, true)
  | .str b => (putTag f.num 2 ++ (putVarint b.length ++ b), !(check && f.kind == .string) || valid b)
  | .msg w =>
    match f.kind with
    | .msg t => (putTag f.num 2 ++ (putVarint (sizeW t w) ++ (encW t w).1), (encW t w).2)
    | _ => ([], true)

/-- Pieces written one after the other until an error (encode.go, `marshalAppendPointer`, library; for
util/protobuf.go:17). -/
def seq : List (Bytes × Bool) → Bytes × Bool
  | [] => ([], true)
  | (b, true) :: r => (b ++ (seq r).1, (seq r).2)
  | (b, false) :: _ => (b, false)

/-- The number in a value. -/
def numOf {W : Type} : Val W → BitVec 64
  | .num x => x
  | _ => 0

/-- A packed field (codec_gen.go, `appendInt32PackedSlice` …, library; for util/protobuf.go:17). -/
def putPacked {W : Type} (f : Field) (vs : List (Val W)) : Bytes :=
  let b := (vs.map (fun v => putNum f.kind (numOf v))).flatten
  if vs.isEmpty then [] else putTag f.num 2 ++ (putVarint b.length ++ b)

/-- A field (codec_gen.go, codec_field.go, library; for util/protobuf.go:17). -/
def putField {W : Type} (check : Bool) (sizeW : Nat → W → Nat) (encW : Nat → W → Bytes × Bool) (f : Field)
    (vs : List (Val W)) : Bytes × Bool :=
  match f.card with
  | .packed => (putPacked f vs, true)
  | _ => seq (vs.map (putVal check sizeW encW f))

/-- encode.go, `marshalAppendPointer` (library; for util/protobuf.go:17): the fields in the order of their numbers,
then the unknown ones. -/
def putBody {W : Type} (check : Bool) (sizeW : Nat → W → Nat) (encW : Nat → W → Bytes × Bool) (fs : List Field)
    (m : Body W) : Bytes × Bool :=
  seq (List.zipWith (putField check sizeW encW) fs m.fields ++ [(m.unknown, true)])

/-- `proto.Marshal` (library; for util/protobuf.go:17): the bytes and whether there was no error; `check = false`:
without looking at strings, for the size (`proto.Size`). -/
def enc (T : Schema) : (d : Nat) → Bool → Nat → Msg d → Bytes × Bool
  | 0, check, t, m => putBody check (fun _ e => nomatch e) (fun _ e => nomatch e) (T t) m
  | d + 1, check, t, m => putBody check (fun t w => (enc T d false t w).1.length) (enc T d check) (T t) m

/-- `proto.Size` (library; for util/protobuf.go:17). -/
def size (T : Schema) (d t : Nat) (m : Msg d) : Nat := (enc T d false t m).1.length

/-- `Marshal` (util/protobuf.go:16-19): the error is dropped. -/
def marshal (T : Schema) (d t : Nat) (m : Msg d) : Bytes := (enc T d true t m).1

/-! ### Unmarshal -/

/-- The elements of a packed field (codec_gen.go, `consumeInt32Slice` …, library; for util/protobuf.go:22). -/
def unpackGo (k : Kind) : Nat → Bytes → Option (List (BitVec 64))
  | _, [] => some []
  | 0, _ :: _ => none
  | f + 1, b :: bs =>
    match takeScalar (wireType k) (b :: bs) with
    | some (.varint v, r) =>
      match k with
      | .varint kv => (unpackGo k f r).map (ofWire kv v :: ·)
      | _ => none
    | some (.f32 v, r) => (unpackGo k f r).map (v :: ·)
    | some (.f64 v, r) => (unpackGo k f r).map (v :: ·)
    | _ => none

/-- The elements of a packed field (library; for util/protobuf.go:22). -/
def unpack (k : Kind) (bs : Bytes) : Option (List (BitVec 64)) := unpackGo k bs.length bs

/-- Repeated fields (library; for util/protobuf.go:22). -/
def isMany (f : Field) : Bool := f.card == .repeated || f.card == .packed

/-- A field becomes unknown, an error, or gets new values. -/
inductive Upd (A : Type)
  | unknown
  | error
  | set (a : A)

/-- The outcome with the value changed. -/
def Upd.map {A B : Type} (g : A → B) : Upd A → Upd B
  | .unknown => .unknown
  | .error => .error
  | .set a => .set (g a)

/-- A scalar is stored (codec_gen.go, library; for util/protobuf.go:22): appended if repeated; without presence the
zero is no value. -/
def store {W : Type} (f : Field) (v : Val W) (vs : List (Val W)) : List (Val W) :=
  match f.card with
  | .repeated | .packed => vs ++ [v]
  | .optional => [v]
  | .implicit =>
    match v with
    | .num x => if x = 0 then [] else [v]
    | .str b => if b = [] then [] else [v]
    | .msg _ => [v]

/-- The message that a field holds. -/
def held {W : Type} : List (Val W) → Option W
  | [.msg w] => some w
  | _ => none

/-- A numeric field that comes as a block of bytes (codec_gen.go, `consumeInt32Slice` …, library; for
util/protobuf.go:22): for a repeated field the elements, packed or not as declared. -/
def applyPacked {W : Type} (f : Field) (k : Kind) (b : Bytes) (vs : List (Val W)) : Upd (List (Val W)) :=
  if isMany f then
    match unpack k b with
    | none => .error
    | some xs => .set (vs ++ xs.map .num)
  else .unknown

/-- codec_gen.go and codec_field.go, `consumeInt32`, `consumeInt32Slice`, `consumeStringValidateUTF8`,
`consumeMessageInfo`, `consumeMessageSliceInfo` … (library; for util/protobuf.go:22). `sub` reads a message into the
one that is there. -/
def applyVal {W : Type} (sub : Nat → Option W → Bytes → Option W) (f : Field) (w : Wire) (vs : List (Val W)) :
    Upd (List (Val W)) :=
  match f.kind, w with
  | .varint k, .varint v => .set (store f (.num (ofWire k v)) vs)
  | .fixed64, .f64 v => .set (store f (.num v) vs)
  | .fixed32, .f32 v => .set (store f (.num v) vs)
  | .string, .bytes b => if valid b then .set (store f (.str b) vs) else .error
  | .bytes, .bytes b => .set (store f (.str b) vs)
  | .msg t, .bytes b =>
    if isMany f then
      match sub t none b with
      | none => .error
      | some w => .set (vs ++ [.msg w])
    else
      match sub t (held vs) b with
      | none => .error
      | some w => .set [.msg w]
  | k, .bytes b => applyPacked f k b vs
  | _, _ => .unknown

/-- The field with the number of the record is looked up (decode.go, `denseCoderFields`, library; for
util/protobuf.go:22). -/
def applyAt {W : Type} (sub : Nat → Option W → Bytes → Option W) : List Field → List (List (Val W)) → Rec →
    Upd (List (List (Val W)))
  | f :: fs, v :: vs, r =>
    if f.num = r.num then (applyVal sub f r.wire v).map (· :: vs) else (applyAt sub fs vs r).map (v :: ·)
  | _, _, _ => .unknown

/-- One round of `unmarshalPointer` (library; for util/protobuf.go:22): unknown fields are kept, with the tag written
anew. -/
def applyRec {W : Type} (sub : Nat → Option W → Bytes → Option W) (fs : List Field) (m : Body W) (r : Rec) :
    Option (Body W) :=
  match applyAt sub fs m.fields r with
  | .unknown => some ⟨m.fields, m.unknown ++ (putTag r.num r.wire.type ++ r.raw)⟩
  | .error => none
  | .set vs => some ⟨vs, m.unknown⟩

/-- The rounds of `unmarshalPointer` (library; for util/protobuf.go:22). -/
def applyAll {W : Type} (sub : Nat → Option W → Bytes → Option W) (fs : List Field) : Body W → List Rec →
    Option (Body W)
  | m, [] => some m
  | m, r :: rs =>
    match applyRec sub fs m r with
    | none => none
    | some m' => applyAll sub fs m' rs

/-- `unmarshalPointer` (library; for util/protobuf.go:22). -/
def decBody {W : Type} (sub : Nat → Option W → Bytes → Option W) (fs : List Field) (m : Body W) (bs : Bytes) :
    Option (Body W) :=
  match records bs with
  | none => none
  | some rs => applyAll sub fs m rs

/-- `unmarshalPointer` with `d` more levels allowed (library; for util/protobuf.go:22): deeper messages are refused. -/
def dec (T : Schema) : (d : Nat) → Nat → Msg d → Bytes → Option (Msg d)
  | 0, t, m, bs => decBody (fun _ _ _ => none) (T t) m bs
  | d + 1, t, m, bs => decBody (fun t o b => dec T d t (o.getD (empty T d t)) b) (T t) m bs

/-- `Unmarshal` (util/protobuf.go:21-23): the message is reset first. The library allows 10000 levels, the message
itself being the first: `d = 9999`. -/
def unmarshal (T : Schema) (d t : Nat) (bs : Bytes) : Option (Msg d) := dec T d t (empty T d t) bs

end Gofer.Proto
