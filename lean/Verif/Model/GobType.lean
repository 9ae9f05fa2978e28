import Verif.Model.Gob

/-!
# Model of `Encode` and `Decode` (util/gob.go:28-41) with the types of both sides

`Model/Gob.lean` has the bytes of values and of messages; what describes the type in the stream is a parameter there. Here the
descriptions are modelled too, byte by byte, and `Decode` into another type than the one that was encoded: fields are matched by their
names, what is not known is skipped, numbers that do not fit are errors. `encoding/gob` is library code.

Not modelled, beyond what is named in `Model/Gob.lean`: `float32` (its values are rounded), fields of embedded structs reached by
their own name, and the limit on the depth of what is skipped (10000). The list of a map is the sequence of the entries put into it.
-/
namespace Gofer.GobType
open Gofer.Gob

/-- Names of types and fields. -/
abbrev Name := List UInt8

mutual
/-- Go types. `int 8` is `int8` and so on; `bytes` is `[]uint8`. A struct type has a name and fields. -/
inductive GTy where
  | bool
  | int (bits : Nat)
  | uint (bits : Nat)
  | float
  | str
  | bytes
  | slice (t : GTy)
  | map (k v : GTy)
  | ptr (t : GTy)
  | struct (n : Name) (f : GFields)
/-- The exported fields of a struct with their names. -/
inductive GFields where
  | nil
  | cons (n : Name) (t : GTy) (f : GFields)
end

mutual
/-- The type without names and sizes: that of `Model/Gob.lean`. -/
def GTy.ty : GTy → Ty
  | .bool => .bool
  | .int _ => .int
  | .uint _ => .uint
  | .float => .float
  | .str => .str
  | .bytes => .bytes
  | .slice t => .slice t.ty
  | .map k v => .map k.ty v.ty
  | .ptr t => .ptr t.ty
  | .struct _ f => .struct f.ty
def GFields.ty : GFields → Fields
  | .nil => .nil
  | .cons _ t f => .cons t.ty f.ty
end

/-- The type behind the pointers (library: `userTypeInfo.base`). -/
def GTy.base : GTy → GTy
  | .ptr t => t.base
  | t => t

/-! ## Descriptions of types, written -/

/-- The numbers and names that the types of the process have been given, in the order of their first use (library: `setTypeId`,
`newTypeObject`). -/
structure Registry where
  id : GTy → BitVec 64
  name : GTy → Name

/-- The number of a type; some are fixed (library: `tBool`, `tInt`, `tUint`, `tFloat`, `tBytes`, `tString`). -/
def Registry.of (reg : Registry) : GTy → BitVec 64
  | .bool => 1
  | .int _ => 2
  | .uint _ => 3
  | .float => 4
  | .bytes => 5
  | .str => 6
  | .ptr t => reg.of t
  | t => reg.id t

/-- `CommonType` (library). -/
abbrev commonTy : Ty := .struct (.cons .str (.cons .int .nil))
/-- `arrayType` (library). -/
abbrev arrayTy : Ty := .struct (.cons commonTy (.cons .int (.cons .int .nil)))
/-- `sliceType` (library). -/
abbrev sliceTy : Ty := .struct (.cons commonTy (.cons .int .nil))
/-- `fieldType` (library). -/
abbrev fieldTy : Ty := .struct (.cons .str (.cons .int .nil))
/-- `structType` (library). -/
abbrev structTy : Ty := .struct (.cons commonTy (.cons (.slice fieldTy) .nil))
/-- `mapType` (library). -/
abbrev mapTy : Ty := .struct (.cons commonTy (.cons .int (.cons .int .nil)))
/-- `gobEncoderType` (library). -/
abbrev externTy : Ty := .struct (.cons commonTy .nil)

/-- `wireType` (library): a description of a type is written as a value of this struct, of which one field is set. -/
abbrev wireTy : Ty := .struct (.cons (.ptr arrayTy) (.cons (.ptr sliceTy) (.cons (.ptr structTy) (.cons (.ptr mapTy)
  (.cons (.ptr externTy) (.cons (.ptr externTy) (.cons (.ptr externTy) .nil)))))))

/-- The names of the fields and the numbers of their types. -/
def fieldsOf (reg : Registry) : GFields → List (Name × BitVec 64)
  | .nil => []
  | .cons n t f => (n, reg.of t) :: fieldsOf reg f

/-- The `wireType` of slices. -/
def wireSlice (n : Name) (id elem : BitVec 64) : wireTy.Val :=
  ((none : Option arrayTy.Val), (some ((n, id, ()), elem, ()) : Option sliceTy.Val), (none : Option structTy.Val), (none : Option mapTy.Val),
    (none : Option externTy.Val), (none : Option externTy.Val), (none : Option externTy.Val), ())

/-- The `wireType` of maps. -/
def wireMap (n : Name) (id key elem : BitVec 64) : wireTy.Val :=
  ((none : Option arrayTy.Val), (none : Option sliceTy.Val), (none : Option structTy.Val), (some ((n, id, ()), key, elem, ()) : Option mapTy.Val),
    (none : Option externTy.Val), (none : Option externTy.Val), (none : Option externTy.Val), ())

/-- The `wireType` of structs; the slice of fields is nil if there are none. -/
def wireStruct (n : Name) (id : BitVec 64) (f : List (Name × BitVec 64)) : wireTy.Val :=
  ((none : Option arrayTy.Val), (none : Option sliceTy.Val),
    (some ((n, id, ()), (if f = [] then none else some (f.map fun e => (e.1, e.2, ())) : Option (List fieldTy.Val)), ()) : Option structTy.Val),
    (none : Option mapTy.Val), (none : Option externTy.Val), (none : Option externTy.Val), (none : Option externTy.Val), ())

/-- The `wireType` of a slice, map or struct (library: `newTypeObject`, `buildTypeInfo`). -/
def describe (reg : Registry) : GTy → wireTy.Val
  | .slice e => wireSlice (reg.name (.slice e)) (reg.id (.slice e)) (reg.of e)
  | .map k e => wireMap (reg.name (.map k e)) (reg.id (.map k e)) (reg.of k) (reg.of e)
  | .struct n f => wireStruct (reg.name (.struct n f)) (reg.id (.struct n f)) (fieldsOf reg f)
  | _ => zero wireTy

/-- The description as it is written behind the negated number (library: `sendActualType`). -/
def described (reg : Registry) (t : GTy) : BitVec 64 × List UInt8 := (-(reg.id t), (put wireTy (describe reg t)).getD [])

mutual
/-- The descriptions of a type and of the types in it that have not been sent yet, and the numbers of those that have been sent then
(library: `sendType`, `sendActualType`; there the types sent are kept, here their numbers). -/
def send (reg : Registry) : GTy → List (BitVec 64) → List (BitVec 64 × List UInt8) × List (BitVec 64)
  | .ptr t, sent => send reg t sent
  | .slice e, sent =>
    if reg.id (.slice e) ∈ sent then ([], sent)
    else
      let r := send reg e (reg.id (.slice e) :: sent)
      (described reg (.slice e) :: r.1, r.2)
  | .map k e, sent =>
    if reg.id (.map k e) ∈ sent then ([], sent)
    else
      let r := send reg k (reg.id (.map k e) :: sent)
      let r' := send reg e r.2
      (described reg (.map k e) :: (r.1 ++ r'.1), r'.2)
  | .struct n f, sent =>
    if reg.id (.struct n f) ∈ sent then ([], sent)
    else
      let r := sendFields reg f (reg.id (.struct n f) :: sent)
      (described reg (.struct n f) :: r.1, r.2)
  | _, sent => ([], sent)
def sendFields (reg : Registry) : GFields → List (BitVec 64) → List (BitVec 64 × List UInt8) × List (BitVec 64)
  | .nil, sent => ([], sent)
  | .cons _ t f, sent =>
    let r := send reg t sent
    let r' := sendFields reg f r.2
    (r.1 ++ r'.1, r'.2)
end

/-- What precedes a value of the type. -/
def lib (reg : Registry) (g : GTy) : Lib where
  id _ := reg.of g
  defs _ := (send reg g []).1
  fits _ _ _ := true

/-- `Encode` (util/gob.go:28-34). -/
def encodeAs (reg : Registry) (g : GTy) (v : g.ty.Val) : Encoded := encode (lib reg g) g.ty v

/-! ## Descriptions of types, read -/

/-- What a description says of a type. -/
inductive Def where
  | slice (elem : BitVec 64)
  | map (key elem : BitVec 64)
  | struct (f : List (Name × BitVec 64))

/-- What a `wireType` says. Arrays and types with methods of their own are not modelled. -/
def shallow (v : wireTy.Val) : Option Def :=
  match (show Option arrayTy.Val × Option sliceTy.Val × Option structTy.Val × Option mapTy.Val × Option externTy.Val × Option externTy.Val ×
      Option externTy.Val × Unit from v) with
  | (none, some s, none, none, none, none, none, _) => some (.slice (show (Name × BitVec 64 × Unit) × BitVec 64 × Unit from s).2.1)
  | (none, none, some s, none, none, none, none, _) =>
    some (.struct (((show (Name × BitVec 64 × Unit) × Option (List (Name × BitVec 64 × Unit)) × Unit from s).2.1.getD []).map fun e => (e.1, e.2.1)))
  | (none, none, none, some s, none, none, none, _) =>
    some (.map (show (Name × BitVec 64 × Unit) × BitVec 64 × BitVec 64 × Unit from s).2.1
      (show (Name × BitVec 64 × Unit) × BitVec 64 × BitVec 64 × Unit from s).2.2.1)
  | _ => none

/-- The descriptions received, by number (library: `recvType`, and the check of what is left of the message in `decodeTypeSequence`).
Numbers below 64 are not for descriptions, and no number can be described twice. -/
def table : List (BitVec 64 × Def) → List (BitVec 64 × List UInt8) → Option (List (BitVec 64 × Def))
  | tb, [] => some tb
  | tb, (nid, c) :: ds =>
    if (-nid).toNat < 64 ∨ (tb.lookup (-nid)).isSome then none
    else
      match get wireTy c with
      | none => none
      | some (v, rest) =>
        if rest ≠ [] then none
        else
          match shallow v with
          | none => none
          | some d => table ((-nid, d) :: tb) ds

mutual
/-- The type that a stream describes: no pointers, sizes or names of types. -/
inductive Wire where
  | bool
  | int
  | uint
  | float
  | str
  | bytes
  | slice (w : Wire)
  | map (k e : Wire)
  | struct (f : WFields)
inductive WFields where
  | nil
  | cons (n : Name) (w : Wire) (f : WFields)
end

/-- The types with fixed numbers (library: `builtinIdToType`). -/
def builtin (id : BitVec 64) : Option Wire :=
  if id = 1 then some .bool else if id = 2 then some .int else if id = 3 then some .uint else if id = 4 then some .float
  else if id = 5 then some .bytes else if id = 6 then some .str else none

/-- The fields, if the type of each is known. -/
def resolveFields (g : BitVec 64 → Option Wire) : List (Name × BitVec 64) → Option WFields
  | [] => some .nil
  | e :: r =>
    match g e.2, resolveFields g r with
    | some w, some f => some (.cons e.1 w f)
    | _, _ => none

/-- The type with a number: the library follows the numbers where it needs them (`compatibleType`, `compileDec`, `decOpFor`,
`decIgnoreOpFor`). Types in themselves are not modelled, so that as many steps are enough as there are descriptions. -/
def resolve (tb : List (BitVec 64 × Def)) : Nat → BitVec 64 → Option Wire
  | 0, id => builtin id
  | n + 1, id =>
    match builtin id with
    | some w => some w
    | none =>
      match tb.lookup id with
      | none => none
      | some (.slice e) => (resolve tb n e).map .slice
      | some (.map k e) =>
        match resolve tb n k, resolve tb n e with
        | some x, some y => some (.map x y)
        | _, _ => none
      | some (.struct f) => (resolveFields (resolve tb n) f).map .struct

/-! ## Values, read into another type -/

/-- The type of the field with this name (library: `FieldByName` in `compileDec`). -/
def find : GFields → Name → Option GTy
  | .nil, _ => none
  | .cons m t f, n => if m = n then some t else find f n

mutual
/-- Whether a variable of a type, pointers removed, can take what the stream describes (library: `compatibleType`, and the checks in
`compileDec`, which goes through all structs within at once). -/
def fits : Wire → GTy → Bool
  | .bool, .bool => true
  | .int, .int _ => true
  | .uint, .uint _ => true
  | .float, .float => true
  | .str, .str => true
  | .bytes, .bytes => true
  | .slice w, .slice t => fits w t.base
  | .map wk we, .map k e => fits wk k.base && fits we e.base
  | .struct wf, .struct _ f => fitsFields wf f
  | _, _ => false
def fitsFields : WFields → GFields → Bool
  | .nil, _ => true
  | .cons n w wf, f =>
    (match find f n with
      | none => true
      | some t => fits w t.base) && fitsFields wf f
end

/-- Whether the two have no field in common though both have fields (library: the check "type mismatch: no fields matched compiling
decoder" in `decodeValue`; made for the value itself only). -/
def noneMatched : Wire → GTy → Bool
  | .struct wf, .struct _ f => go wf f && (match wf with | .nil => false | _ => true) && (match f with | .nil => false | _ => true)
  | _, _ => false
where
  go : WFields → GFields → Bool
    | .nil, _ => true
    | .cons n _ wf, f => (find f n).isNone && go wf f

mutual
/-- A value is skipped (library: `decIgnoreOpFor`, `ignoreSlice`, `ignoreMap`, `ignoreStruct`). -/
def skip : Wire → List UInt8 → Option (List UInt8)
  | .bool, bs => (getUint bs).map (·.2)
  | .int, bs => (getUint bs).map (·.2)
  | .uint, bs => (getUint bs).map (·.2)
  | .float, bs => (getUint bs).map (·.2)
  | .str, bs => (getBytes bs).map (·.2)
  | .bytes, bs => (getBytes bs).map (·.2)
  | .slice w, bs =>
    match getUint bs with
    | none => none
    | some (n, r) => (getAll (fun bs => (skip w bs).map fun r => ((), r)) n r).map (·.2)
  | .map wk we, bs =>
    match getUint bs with
    | none => none
    | some (n, r) => (getAll (fun bs => (skip wk bs).bind fun r => (skip we r).map fun r => ((), r)) n r).map (·.2)
  | .struct wf, bs =>
    match delta bs with
    | none => none
    | some (d, r) => skipFields wf d r
def skipFields : WFields → Nat → List UInt8 → Option (List UInt8)
  | .nil, d, bs => if d = 0 then some bs else none
  | .cons _ w wf, d, bs =>
    match d with
    | 0 => some bs
    | 1 =>
      match skip w bs with
      | none => none
      | some r =>
        match delta r with
        | none => none
        | some (d', r') => skipFields wf d' r'
    | d + 2 => skipFields wf (d + 1) bs
end

/-- Variables behind pointers are made new (library: `decAlloc`). -/
def alloc : (t : GTy) → ((b : GTy) → Option (b.ty.Val × List UInt8)) → Option (t.ty.Val × List UInt8)
  | .ptr t, k => (alloc t k).map fun p => (show Option t.ty.Val from some p.1, p.2)
  | .bool, k => k .bool
  | .int n, k => k (.int n)
  | .uint n, k => k (.uint n)
  | .float, k => k .float
  | .str, k => k .str
  | .bytes, k => k .bytes
  | .slice t, k => k (.slice t)
  | .map a b, k => k (.map a b)
  | .struct n f, k => k (.struct n f)

/-- The field with the name is set to what is read, or what is in the stream is skipped if there is none. -/
def atField : (f : GFields) → Name → ((t : GTy) → Option (t.ty.Val × List UInt8)) → Option (List UInt8) → f.ty.Vals →
    Option (f.ty.Vals × List UInt8)
  | .nil, _, _, ignored, _ => ignored.map fun r => ((), r)
  | .cons m t f, n, k, ignored, ws =>
    if m = n then (k t).map fun p => ((p.1, (show t.ty.Val × f.ty.Vals from ws).2), p.2)
    else (atField f n k ignored (show t.ty.Val × f.ty.Vals from ws).2).map fun p => (((show t.ty.Val × f.ty.Vals from ws).1, p.1), p.2)

/-- Whether a number is one of the type `int8`, `int16` and so on. -/
def isInt (bits : Nat) (x : BitVec 64) : Bool := decide (-2 ^ (bits - 1) ≤ x.toInt ∧ x.toInt < 2 ^ (bits - 1))

/-- Whether a number is one of the type `uint8`, `uint16` and so on. -/
def isUint (bits : Nat) (x : BitVec 64) : Bool := decide (x.toNat < 2 ^ bits)

/-- An entry of a map is read. -/
def readEntry {α β : Type} (k : List UInt8 → Option (α × List UInt8)) (e : List UInt8 → Option (β × List UInt8)) (bs : List UInt8) :
    Option ((α × β) × List UInt8) :=
  match k bs with
  | none => none
  | some (a, r) =>
    match e r with
    | none => none
    | some (b, r) => some ((a, b), r)

mutual
/-- A value of the type that the stream describes is read into a new variable (library: `decOpFor`, `decInt8` and so on,
`decodeSlice`, `decodeMap`, `decodeStruct`). A number that the variable cannot hold is an error. The type has no pointer outside. -/
def getAs : Wire → (b : GTy) → List UInt8 → Option (b.ty.Val × List UInt8)
  | .bool, .bool, bs => get .bool bs
  | .int, .int n, bs =>
    match getInt bs with
    | none => none
    | some (x, r) => if isInt n x then some ((show BitVec 64 from x), r) else none
  | .uint, .uint n, bs =>
    match getUint bs with
    | none => none
    | some (x, r) => if isUint n (BitVec.ofNat 64 x) then some ((show BitVec 64 from BitVec.ofNat 64 x), r) else none
  | .float, .float, bs => get .float bs
  | .str, .str, bs => get .str bs
  | .bytes, .bytes, bs => get .bytes bs
  | .slice w, .slice t, bs =>
    match getUint bs with
    | none => none
    | some (n, r) =>
      (getAll (fun bs => alloc t fun b => getAs w b bs) n r).map fun p => (show Option (List t.ty.Val) from if p.1.isEmpty then none else some p.1, p.2)
  | .map wk we, .map k e, bs =>
    match getUint bs with
    | none => none
    | some (n, r) =>
      (getAll (readEntry (fun bs => alloc k fun b => getAs wk b bs) (fun bs => alloc e fun b => getAs we b bs)) n r).map fun p =>
        (show Option (List (k.ty.Val × e.ty.Val)) from some p.1, p.2)
  | .struct wf, .struct _ f, bs =>
    match delta bs with
    | none => none
    | some (d, r) => getFieldsAs wf f d (zeros f.ty) r
  | _, _, _ => none
/-- The fields of a struct, in the order of the stream; `d` is the difference to the next field that is present, `ws` what the variable
holds so far. -/
def getFieldsAs : WFields → (f : GFields) → Nat → f.ty.Vals → List UInt8 → Option (f.ty.Vals × List UInt8)
  | .nil, _, d, ws, bs => if d = 0 then some (ws, bs) else none
  | .cons n w wf, f, d, ws, bs =>
    match d with
    | 0 => some (ws, bs)
    | 1 =>
      match atField f n (fun t => alloc t fun b => getAs w b bs) (skip w bs) ws with
      | none => none
      | some (ws', r) =>
        match delta r with
        | none => none
        | some (d', r') => getFieldsAs wf f d' ws' r'
    | d + 2 => getFieldsAs wf f (d + 1) ws bs
end

/-- `Decode` (util/gob.go:36-41); `none` is an error. -/
def decodeAs (g : GTy) (bs : List UInt8) : Option g.ty.Val :=
  match getSequence (bs.length + 1) bs with
  | none => none
  | some (defs, id, m) =>
    match table [] defs with
    | none => none
    | some tb =>
      match resolve tb tb.length id with
      | none => none
      | some w =>
        if fits w g.base = false then none
        else if noneMatched w g.base then none
        else if isStruct g.ty then (alloc g fun b => getAs w b m).map (·.1)
        else
          match getUint m with
          | none => none
          | some (d, m) => if d ≠ 0 then none else (alloc g fun b => getAs w b m).map (·.1)

end Gofer.GobType
