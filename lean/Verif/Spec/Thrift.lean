/-!
# The Thrift compact wire format

Values of every Thrift type and the bytes that stand for them, after the published description of the
compact protocol.
-/
namespace Gofer.Spec.Thrift

/-- Thrift types. -/
inductive TType where
  | bool | byte | i16 | i32 | i64 | double | string | list | set | map | struct
deriving DecidableEq

/-- Type numbers on the wire. A boolean in a container has type 1. -/
def TType.code : TType → Nat
  | .bool => 1 | .byte => 3 | .i16 => 4 | .i32 => 5 | .i64 => 6 | .double => 7 | .string => 8
  | .list => 9 | .set => 10 | .map => 11 | .struct => 12

mutual
/-- A Thrift value. Integers are mathematical integers; a double is its 8 bytes. -/
inductive TVal where
  | bool (b : Bool)
  | byte (b : UInt8)
  | i16 (z : Int)
  | i32 (z : Int)
  | i64 (z : Int)
  | double (bs : List UInt8)
  | str (s : List UInt8)
  | struct (fs : TFields)
  | map (kt vt : TType) (es : TPairs)
  | list (t : TType) (es : TVals)
  | set (t : TType) (es : TVals)
/-- Fields of a struct, in wire order. -/
inductive TFields where
  | nil
  | cons (id : Int) (v : TVal) (rest : TFields)
/-- Entries of a map. -/
inductive TPairs where
  | nil
  | cons (k v : TVal) (rest : TPairs)
/-- Elements of a list or set. -/
inductive TVals where
  | nil
  | cons (v : TVal) (rest : TVals)
end

def TVal.type : TVal → TType
  | .bool _ => .bool | .byte _ => .byte | .i16 _ => .i16 | .i32 _ => .i32 | .i64 _ => .i64
  | .double _ => .double | .str _ => .string | .struct _ => .struct | .map .. => .map
  | .list .. => .list | .set .. => .set

def TPairs.length : TPairs → Nat
  | .nil => 0
  | .cons _ _ r => r.length + 1

def TVals.length : TVals → Nat
  | .nil => 0
  | .cons _ r => r.length + 1

/-- Digits of `n` in base 128, least significant first, all but the last with the top bit set (`fuel`
bounds the number of digits). -/
def varintGo : Nat → Nat → List UInt8
  | 0, n => [n.toUInt8]
  | f + 1, n => if n < 128 then [n.toUInt8] else (n % 128 + 128).toUInt8 :: varintGo f (n / 128)

/-- Variable-length number. -/
def varint (n : Nat) : List UInt8 := varintGo n n

/-- Zigzag: 0, -1, 1, -2, ... are 0, 1, 2, 3, ... -/
def zigzag (z : Int) : Nat := if 0 ≤ z then (2 * z).toNat else (-2 * z - 1).toNat

/-- Field header: the distance to the previous id and the type in one byte if the distance is 1 … 15,
else the type and the id. -/
def fieldHeader (last id : Int) (code : Nat) : List UInt8 :=
  if last < id ∧ id - last ≤ 15 then [((id - last).toNat * 16 + code).toUInt8]
  else code.toUInt8 :: varint (zigzag id)

/-- Type number in a field header; a boolean's value is in it. -/
def fieldCode : TVal → Nat
  | .bool true => 1
  | .bool false => 2
  | v => v.type.code

/-- Header of a map. -/
def mapHeader (kt vt : TType) (n : Nat) : List UInt8 :=
  if n = 0 then [0] else varint n ++ [(kt.code * 16 + vt.code).toUInt8]

/-- Header of a list or set. -/
def listHeader (t : TType) (n : Nat) : List UInt8 :=
  if n < 15 then [(n * 16 + t.code).toUInt8] else (15 * 16 + t.code).toUInt8 :: varint n

mutual
/-- The bytes of a value. -/
def encVal : TVal → List UInt8
  | .bool b => [if b then 1 else 2]
  | .byte b => [b]
  | .i16 z => varint (zigzag z)
  | .i32 z => varint (zigzag z)
  | .i64 z => varint (zigzag z)
  | .double bs => bs
  | .str s => varint s.length ++ s
  | .struct fs => encFields 0 fs
  | .map kt vt es => mapHeader kt vt es.length ++ encPairs es
  | .list t es => listHeader t es.length ++ encVals es
  | .set t es => listHeader t es.length ++ encVals es
/-- The bytes of the remaining fields of a struct after the field `last`, and the stop byte. -/
def encFields (last : Int) : TFields → List UInt8
  | .nil => [0]
  | .cons id v rest =>
    fieldHeader last id (fieldCode v) ++ (if v.type = .bool then [] else encVal v) ++ encFields id rest
def encPairs : TPairs → List UInt8
  | .nil => []
  | .cons k v rest => encVal k ++ (encVal v ++ encPairs rest)
def encVals : TVals → List UInt8
  | .nil => []
  | .cons v rest => encVal v ++ encVals rest
end

mutual
/-- A value that fits the format: element types as announced, sizes at most `limit`, ids in the range of
int16, doubles 8 bytes long, nesting at most `d`. -/
def okVal (limit : Nat) (d : Nat) : TVal → Prop
  | .double bs => 0 < d ∧ bs.length = 8
  | .str s => 0 < d ∧ s.length ≤ limit
  | .struct fs => 0 < d ∧ okFields limit (d - 1) fs
  | .map kt vt es => 0 < d ∧ es.length ≤ limit ∧ okPairs limit (d - 1) kt vt es
  | .list t es => 0 < d ∧ es.length ≤ limit ∧ okVals limit (d - 1) t es
  | .set t es => 0 < d ∧ es.length ≤ limit ∧ okVals limit (d - 1) t es
  | _ => 0 < d
def okFields (limit : Nat) (d : Nat) : TFields → Prop
  | .nil => True
  | .cons id v rest => (-32768 ≤ id ∧ id < 32768) ∧ okVal limit d v ∧ okFields limit d rest
def okPairs (limit : Nat) (d : Nat) (kt vt : TType) : TPairs → Prop
  | .nil => True
  | .cons k v rest => (k.type = kt ∧ v.type = vt) ∧ okVal limit d k ∧ okVal limit d v ∧ okPairs limit d kt vt rest
def okVals (limit : Nat) (d : Nat) (t : TType) : TVals → Prop
  | .nil => True
  | .cons v rest => v.type = t ∧ okVal limit d v ∧ okVals limit d t rest
end

end Gofer.Spec.Thrift
