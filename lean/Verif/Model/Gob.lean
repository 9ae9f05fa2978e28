/-!
# Model of `Encode` and `Decode` (util/gob.go:28-41)

`encoding/gob` is library code. Modelled are the values of types made of booleans, integers, floating point numbers, strings,
byte slices, slices, maps, pointers and structs: how they are written and read, byte by byte, which fields of structs are left
out, and the messages of a stream. Not modelled: arrays, complex numbers, interfaces, types with methods of their own for gob,
recursive types, structs that have fields but no exported ones (an error), slices that take more than 2^33 bytes in memory (an error of
the decoder). Here a value is decoded into the type that was encoded, and the definitions of types that precede it in the stream are
messages whose contents are a parameter (`Lib`); both are modelled in `Model/GobType.lean`.

A map is the list of its entries in the order in which the range over it meets them; its keys are distinct, so that entries
read do not replace each other.
-/
namespace Gofer.Gob

mutual
/-- Types. Integers of all sizes are written alike; `int` stands for them, `uint` for the unsigned ones and `float` for both
floating point types. -/
inductive Ty where
  | bool
  | int
  | uint
  | float
  | str
  | bytes
  | slice (t : Ty)
  | map (k v : Ty)
  | ptr (t : Ty)
  | struct (f : Fields)
/-- The exported fields of a struct type, in order. -/
inductive Fields where
  | nil
  | cons (t : Ty) (f : Fields)
end

mutual
/-- The values of a type; `none` is nil. A floating point number is given by its bits. -/
def Ty.Val : Ty → Type
  | .bool => Bool
  | .int => BitVec 64
  | .uint => BitVec 64
  | .float => BitVec 64
  | .str => List UInt8
  | .bytes => Option (List UInt8)
  | .slice t => Option (List t.Val)
  | .map k v => Option (List (k.Val × v.Val))
  | .ptr t => Option t.Val
  | .struct f => f.Vals
/-- The values of the fields. -/
def Fields.Vals : Fields → Type
  | .nil => Unit
  | .cons t f => t.Val × f.Vals
end

mutual
/-- `*new(T)`. -/
def zero : (t : Ty) → t.Val
  | .bool => false
  | .int => (0 : BitVec 64)
  | .uint => (0 : BitVec 64)
  | .float => (0 : BitVec 64)
  | .str => ([] : List UInt8)
  | .bytes => (none : Option (List UInt8))
  | .slice t => (none : Option (List t.Val))
  | .map k v => (none : Option (List (k.Val × v.Val)))
  | .ptr t => (none : Option t.Val)
  | .struct f => zeros f
def zeros : (f : Fields) → f.Vals
  | .nil => ()
  | .cons t f => (zero t, zeros f)
end

/-- The big-endian bytes of a number, without leading zeros. -/
def bigEndian : Nat → Nat → List UInt8
  | 0, _ => []
  | n + 1, x => if x = 0 then [] else bigEndian n (x / 256) ++ [x.toUInt8]

/-- `encoderState.encodeUint` (library): numbers up to 127 are one byte, others the negated number of bytes followed by these. -/
def putUint (x : Nat) : List UInt8 :=
  if x ≤ 127 then [x.toUInt8] else
    let b := bigEndian 8 x
    (256 - b.length).toUInt8 :: b

/-- `decoderState.decodeUint` (library). -/
def getUint : List UInt8 → Option (Nat × List UInt8)
  | [] => none
  | b :: r =>
    if b ≤ 127 then some (b.toNat, r)
    else
      let n := 256 - b.toNat
      if n > 8 then none
      else if r.length < n then none
      else some ((r.take n).foldl (fun x c => (x * 256 + c.toNat)) 0, r.drop n)

/-- `encoderState.encodeInt` (library). -/
def putInt (x : BitVec 64) : List UInt8 := if x.msb then putUint (2 * (~~~x).toNat + 1) else putUint (2 * x.toNat)

/-- `decoderState.decodeInt` (library). -/
def getInt (bs : List UInt8) : Option (BitVec 64 × List UInt8) :=
  match getUint bs with
  | none => none
  | some (u, r) =>
    if u % 2 = 1 then some (~~~(BitVec.ofNat 64 (u / 2)), r) else some (BitVec.ofNat 64 (u / 2), r)

/-- `floatBits` (library): the bytes of the number in reverse order. -/
def reverseBytes (x : BitVec 64) : BitVec 64 :=
  x.extractLsb' 0 8 ++ x.extractLsb' 8 8 ++ x.extractLsb' 16 8 ++ x.extractLsb' 24 8 ++ x.extractLsb' 32 8 ++ x.extractLsb' 40 8 ++
    x.extractLsb' 48 8 ++ x.extractLsb' 56 8

/-- Bytes with their number before them: `encString`, `encUint8Array` (library). -/
def putBytes (b : List UInt8) : List UInt8 := putUint b.length ++ b

/-- `decString`, `decUint8Slice` (library). -/
def getBytes (bs : List UInt8) : Option (List UInt8 × List UInt8) :=
  match getUint bs with
  | none => none
  | some (n, r) => if r.length < n then none else some (r.take n, r.drop n)

/-- Whether a field with this value is left out (library: the conditions in `encBool`, `encInt`, `encUint`, `encFloat`,
`encString`, `encUint8Array` and `encOpFor`). A pointer is followed first. -/
def omitted : (t : Ty) → t.Val → Bool
  | .bool, v => !(show Bool from v)
  | .int, v => (show BitVec 64 from v) == 0
  | .uint, v => (show BitVec 64 from v) == 0
  | .float, v => (show BitVec 64 from v) == 0 || (show BitVec 64 from v) == 0x8000000000000000#64
  | .str, v => (show List UInt8 from v).isEmpty
  | .bytes, v =>
    match (show Option (List UInt8) from v) with
    | none => true
    | some b => b.isEmpty
  | .slice t, v =>
    match (show Option (List t.Val) from v) with
    | none => true
    | some l => l.isEmpty
  | .map k w, v => (show Option (List (k.Val × w.Val)) from v).isNone
  | .ptr t, v =>
    match (show Option t.Val from v) with
    | none => true
    | some x => omitted t x
  | .struct _, _ => false

/-- All of them, or an error if one is. -/
def putAll {α : Type} (p : α → Option (List UInt8)) : List α → Option (List UInt8)
  | [] => some []
  | a :: r =>
    match p a, putAll p r with
    | some x, some y => some (x ++ y)
    | _, _ => none

mutual
/-- A value that is written whatever it is: elements, keys, the value itself, and fields that are not left out (library:
`encOpFor`, `encodeArray`, `encodeMap`, `encodeStruct`). A nil pointer is an error ("encodeReflectValue: nil element"). -/
def put : (t : Ty) → t.Val → Option (List UInt8)
  | .bool, v => some (putUint (if (show Bool from v) then 1 else 0))
  | .int, v => some (putInt v)
  | .uint, v => some (putUint (show BitVec 64 from v).toNat)
  | .float, v => some (putUint (reverseBytes v).toNat)
  | .str, v => some (putBytes v)
  | .bytes, v => some (putBytes ((show Option (List UInt8) from v).getD []))
  | .slice t, v =>
    let l := (show Option (List t.Val) from v).getD []
    (putAll (put t) l).map (putUint l.length ++ ·)
  | .map k w, v =>
    let l := (show Option (List (k.Val × w.Val)) from v).getD []
    (putAll (fun e : k.Val × w.Val =>
      match put k e.1, put w e.2 with
      | some x, some y => some (x ++ y)
      | _, _ => none) l).map (putUint l.length ++ ·)
  | .ptr t, v =>
    match (show Option t.Val from v) with
    | none => none
    | some x => put t x
  | .struct f, v => putFields f 1 v
/-- The fields of a struct: each that is not left out is preceded by the difference `gap` to the one before; a zero ends the
struct (library: `encodeStruct`, `encoderState.update`). -/
def putFields : (f : Fields) → Nat → f.Vals → Option (List UInt8)
  | .nil, _, _ => some (putUint 0)
  | .cons t f, gap, v =>
    if omitted t (show t.Val × f.Vals from v).1 then putFields f (gap + 1) (show t.Val × f.Vals from v).2
    else
      match put t (show t.Val × f.Vals from v).1, putFields f 1 (show t.Val × f.Vals from v).2 with
      | some x, some y => some (putUint gap ++ x ++ y)
      | _, _ => none
end

/-- `n` of them. -/
def getAll {α : Type} (g : List UInt8 → Option (α × List UInt8)) : Nat → List UInt8 → Option (List α × List UInt8)
  | 0, bs => some ([], bs)
  | n + 1, bs =>
    match g bs with
    | none => none
    | some (a, r) =>
      match getAll g n r with
      | none => none
      | some (l, r') => some (a :: l, r')

/-- The difference to the next field that is present. Where the message ends, a struct ends too (library: the condition
`state.b.Len() > 0` of the loop in `decodeStruct`). -/
def delta : List UInt8 → Option (Nat × List UInt8)
  | [] => some (0, [])
  | b :: r => getUint (b :: r)

mutual
/-- A value read into a new variable of its type (library: `decOpFor`, `decodeSlice`, `decodeMap`, `decodeStruct`). A slice of
length 0 leaves the variable nil; a map is made in any case. The limits on the memory that a slice may take are left out. -/
def get : (t : Ty) → List UInt8 → Option (t.Val × List UInt8)
  | .bool, bs => (getUint bs).map fun p => (show Bool from p.1 != 0, p.2)
  | .int, bs => getInt bs
  | .uint, bs => (getUint bs).map fun p => (show BitVec 64 from BitVec.ofNat 64 p.1, p.2)
  | .float, bs => (getUint bs).map fun p => (show BitVec 64 from reverseBytes (BitVec.ofNat 64 p.1), p.2)
  | .str, bs => getBytes bs
  | .bytes, bs => (getBytes bs).map fun p => (show Option (List UInt8) from if p.1.isEmpty then none else some p.1, p.2)
  | .slice t, bs =>
    match getUint bs with
    | none => none
    | some (n, r) => (getAll (get t) n r).map fun p => (show Option (List t.Val) from if p.1.isEmpty then none else some p.1, p.2)
  | .map k w, bs =>
    match getUint bs with
    | none => none
    | some (n, r) =>
      (getAll (fun bs =>
        match get k bs with
        | none => none
        | some (a, r) =>
          match get w r with
          | none => none
          | some (b, r) => some ((a, b), r)) n r).map fun p => (show Option (List (k.Val × w.Val)) from some p.1, p.2)
  | .ptr t, bs => (get t bs).map fun p => (show Option t.Val from some p.1, p.2)
  | .struct f, bs =>
    match delta bs with
    | none => none
    | some (d, r) => getFields f d r
/-- The fields of a struct; `d` is the difference to the next field that is present, 0 at the end. A number beyond the last field is
an error (library: `decodeStruct`). -/
def getFields : (f : Fields) → Nat → List UInt8 → Option (f.Vals × List UInt8)
  | .nil, d, bs => if d = 0 then some ((), bs) else none
  | .cons t f, d, bs =>
    match d with
    | 0 => some ((zero t, zeros f), bs)
    | 1 =>
      match get t bs with
      | none => none
      | some (v, r) =>
        match delta r with
        | none => none
        | some (d', r') => (getFields f d' r').map fun p => ((v, p.1), p.2)
    | d + 2 => (getFields f (d + 1) bs).map fun p => ((zero t, p.1), p.2)
end

/-- The definitions of types in a stream: the number of a type, the messages that define it (of each the negated number and the
contents), and whether the messages read define, under this number, the type that is wanted (library: `sendTypeDescriptor`,
`recvType`, `compatibleType`). -/
structure Lib where
  id : Ty → BitVec 64
  defs : Ty → List (BitVec 64 × List UInt8)
  fits : List (BitVec 64 × List UInt8) → BitVec 64 → Ty → Bool

/-- Numbers of types are positive, those of definitions negative, and what was written for a type is accepted for it. -/
structure Lib.Lawful (l : Lib) : Prop where
  id_pos : ∀ t, (l.id t).msb = false
  defs_neg : ∀ t, ∀ d ∈ l.defs t, d.1.msb = true
  defs_len : ∀ t, ∀ d ∈ l.defs t, d.2.length < 2 ^ 32
  fits_own : ∀ t, l.fits (l.defs t) (l.id t) t = true

/-- `tooBig` of a 64-bit machine (library). -/
def tooBig : Nat := 2 ^ 33

/-- A message: its length and its contents (library: `writeMessage`). -/
def message (b : List UInt8) : List UInt8 := putUint b.length ++ b

/-- Whether the type, behind pointers, is a struct. -/
def isStruct : Ty → Bool
  | .struct _ => true
  | .ptr t => isStruct t
  | _ => false

/-- The message with the value: the number of the type, a zero unless it is a struct, and the value (library: `sendTypeId`,
`encodeSingle`, `encodeStruct`). -/
def body (l : Lib) (t : Ty) (v : t.Val) : Option (List UInt8) :=
  (put t v).map fun b => putInt (l.id t) ++ (if isStruct t then [] else putUint 0) ++ b

/-- The messages with the definitions. -/
def definitions (l : Lib) (t : Ty) : List UInt8 := (l.defs t).flatMap fun d => message (putInt d.1 ++ d.2)

/-- Whether there is nothing behind the pointers (library: `EncodeValue`, and `reflect.Indirect` in `encode`). -/
def nilPtr : (t : Ty) → t.Val → Bool
  | .ptr t, v =>
    match (show Option t.Val from v) with
    | none => true
    | some x => nilPtr t x
  | _, _ => false

/-- What `Encode` does. -/
inductive Encoded where
  /-- a nil pointer -/
  | panic
  /-- the result and whether there was an error -/
  | done (by_ : List UInt8) (err : Bool)
deriving DecidableEq

/-- `Encode` (util/gob.go:28-34). The definitions have been written when an error shows up in the value. -/
def encode (l : Lib) (t : Ty) (v : t.Val) : Encoded :=
  if nilPtr t v then .panic
  else
    match body l t v with
    | none => .done (definitions l t) true
    | some b => if b.length ≥ tooBig then .done (definitions l t) true else .done (definitions l t ++ message b) false

/-- A message is read (library: `recvMessage`). -/
def getMessage (bs : List UInt8) : Option (List UInt8 × List UInt8) :=
  match getUint bs with
  | none => none
  | some (n, r) => if n ≥ tooBig then none else if r.length < n then none else some (r.take n, r.drop n)

/-- Definitions are read until there is a value (library: `decodeTypeSequence`); at most `fuel` messages, of which every one takes a byte
at least. The definitions in the order read, the number of the type and the rest of the message. -/
def getSequence : Nat → List UInt8 → Option (List (BitVec 64 × List UInt8) × BitVec 64 × List UInt8)
  | 0, _ => none
  | fuel + 1, bs =>
    match getMessage bs with
    | none => none
    | some (m, r) =>
      match getInt m with
      | none => none
      | some (id, c) =>
        if id.msb then (getSequence fuel r).map fun p => ((id, c) :: p.1, p.2) else some ([], id, c)

/-- `Decode` (util/gob.go:36-41); `none` is an error. -/
def decode (l : Lib) (t : Ty) (bs : List UInt8) : Option t.Val :=
  match getSequence (bs.length + 1) bs with
  | none => none
  | some (defs, id, m) =>
    if l.fits defs id t = false then none
    else if isStruct t then (get t m).map (·.1)
    else
      match getUint m with
      | none => none
      | some (d, m) => if d ≠ 0 then none else (get t m).map (·.1)

end Gofer.Gob
