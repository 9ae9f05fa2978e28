import Verif.Spec.Thrift

/-!
# Thrift structs, as their users see them

The struct types of an interface file, their values, and what a program that was generated from another version of
the file has of them. Only `depth` and `ttype` have to do with how values are sent.
-/
namespace Gofer.Spec.ThriftStruct
open Gofer.Spec.Thrift

abbrev Bytes := List UInt8

/-- The types of fields. An enum is an `i32`; `str` stands for string and binary; `struct n` is the struct type
number `n` of the schema (also unions and exceptions). -/
inductive Ty
  | bool | byte | i16 | i32 | i64 | double | str
  | list (t : Ty)
  | set (t : Ty)
  | map (k v : Ty)
  | struct (n : Nat)
  deriving DecidableEq

/-- `default`: a field with neither keyword. -/
inductive Req
  | required | default | optional
  deriving DecidableEq

structure Field where
  id : Nat
  req : Req
  ty : Ty
  deriving DecidableEq

/-- The fields of the struct types. Types may refer to each other and to themselves. -/
abbrev Schema := Nat → List Field

/-- Types whose values Go can compare bit by bit. -/
def Ty.Plain : Ty → Prop
  | .bool | .byte | .i16 | .i32 | .i64 | .str => True
  | _ => False

/-- Keys of maps and elements of sets are plain. -/
def Ty.Legal : Ty → Prop
  | .list t => t.Legal
  | .set t => t.Plain
  | .map k v => k.Plain ∧ v.Legal
  | _ => True

/-- Different positive ids, listed in ascending order. -/
def Legal (T : Schema) : Prop :=
  ∀ n, (T n).Pairwise (fun f g => f.id < g.id) ∧ ∀ f ∈ T n, 1 ≤ f.id ∧ f.id < 2 ^ 15 ∧ f.ty.Legal

/-- The Go values of a type: an integer or the 64 bits of a double, a string, a slice, a map as the list of its
entries in the order in which they happen to be visited; `W n` for the struct type `n`. -/
def Val (W : Nat → Type) : Ty → Type
  | .bool => Bool
  | .byte => UInt8
  | .i16 => BitVec 16
  | .i32 => BitVec 32
  | .i64 => BitVec 64
  | .double => BitVec 64
  | .str => Bytes
  | .list t => List (Val W t)
  | .set t => List (Val W t)
  | .map k v => List (Val W k × Val W v)
  | .struct n => W n

/-- A field with its value, or `none`: not set (nil). -/
def Slots (W : Nat → Type) : List Field → Type
  | [] => Unit
  | f :: fs => Option (Val W f.ty) × Slots W fs

/-- The structs of type `n` with less than `d` structs around each other. -/
def Struct (T : Schema) : Nat → Nat → Type
  | 0, _ => Empty
  | d + 1, n => Slots (Struct T d) (T n)

/-! ### Proper values -/

def All {A : Type} (p : A → Prop) (l : List A) : Prop := ∀ a ∈ l, p a

def DifferentKeys {K A : Type} (l : List (K × A)) : Prop := (l.map Prod.fst).Nodup

/-- Strings and containers of at most `limit` elements, keys of a map different. -/
def ValOk {W : Nat → Type} (limit : Nat) (good : (n : Nat) → W n → Prop) : (t : Ty) → Val W t → Prop
  | .str, s => List.length (α := UInt8) s ≤ limit
  | .list t, l => List.length (α := Val W t) l ≤ limit ∧ All (A := Val W t) (fun v => ValOk limit good t v) l
  | .set t, l => List.length (α := Val W t) l ≤ limit ∧ All (A := Val W t) (fun v => ValOk limit good t v) l
  | .map k v, l => List.length (α := Val W k × Val W v) l ≤ limit ∧
      DifferentKeys (K := Val W k) (A := Val W v) l ∧
      All (A := Val W k × Val W v) (fun e => ValOk limit good k e.1 ∧ ValOk limit good v e.2) l
  | .struct n, w => good n w
  | .bool, _ | .byte, _ | .i16, _ | .i32, _ | .i64, _ | .double, _ => True

/-- Only optional fields may be nil. -/
def SlotsOk {W : Nat → Type} (limit : Nat) (good : (n : Nat) → W n → Prop) : (fs : List Field) → Slots W fs → Prop
  | [], _ => True
  | f :: fs, (o, s) => (o = none → f.req = .optional) ∧ (∀ v, o = some v → ValOk limit good f.ty v) ∧ SlotsOk limit good fs s

def Ok (T : Schema) (limit : Nat) : (d n : Nat) → Struct T d n → Prop
  | 0, _, e => nomatch e
  | d + 1, n, s => SlotsOk limit (Ok T limit d) (T n) s

/-- No slice that stands for a set has an element twice. -/
def ValNoDoubles {W : Nat → Type} (good : (n : Nat) → W n → Prop) : (t : Ty) → Val W t → Prop
  | .list t, l => All (A := Val W t) (fun v => ValNoDoubles good t v) l
  | .set t, l => List.Nodup (α := Val W t) l
  | .map k v, l => All (A := Val W k × Val W v) (fun e => ValNoDoubles good v e.2) l
  | .struct n, w => good n w
  | .bool, _ | .byte, _ | .i16, _ | .i32, _ | .i64, _ | .double, _ | .str, _ => True

def SlotsNoDoubles {W : Nat → Type} (good : (n : Nat) → W n → Prop) : (fs : List Field) → Slots W fs → Prop
  | [], _ => True
  | f :: fs, (o, s) => (∀ v, o = some v → ValNoDoubles good f.ty v) ∧ SlotsNoDoubles good fs s

def NoDoubles (T : Schema) : (d n : Nat) → Struct T d n → Prop
  | 0, _, e => nomatch e
  | d + 1, n, s => SlotsNoDoubles (NoDoubles T d) (T n) s

/-! ### Two versions of an interface file -/

/-- The type by which a field is announced. -/
def Ty.ttype : Ty → TType
  | .bool => .bool | .byte => .byte | .i16 => .i16 | .i32 => .i32 | .i64 => .i64 | .double => .double
  | .str => .string | .list _ => .list | .set _ => .set | .map .. => .map | .struct _ => .struct

/-- From the fields of the writer to those of the reader: fields stay (perhaps with another keyword), go, or are
new. -/
inductive Change : List Field → List Field → Type
  | nil : Change [] []
  | same {fs gs} (f : Field) (q : Req) : Change fs gs → Change (f :: fs) ({f with req := q} :: gs)
  | dropped {fs gs} (f : Field) : Change fs gs → Change (f :: fs) gs
  | added {fs gs} (g : Field) : Change fs gs → Change fs (g :: gs)

def Change.lost {fs gs : List Field} : Change fs gs → List Field
  | .nil => []
  | .same _ _ c => c.lost
  | .dropped f c => f :: c.lost
  | .added _ c => c.lost

/-- The id of a field that has gone is not used again, or only with a type that cannot be confused with it. -/
def Change.Sound {fs gs : List Field} (c : Change fs gs) : Prop :=
  ∀ f ∈ c.lost, ∀ g ∈ gs, g.id = f.id → g.ty.ttype ≠ f.ty.ttype

/-- The reader's file is older: it has some of the fields, as they are. -/
def Change.Older {fs gs : List Field} : Change fs gs → Prop
  | .nil => True
  | .same f q c => q = f.req ∧ c.Older
  | .dropped _ c => c.Older
  | .added _ _ => False

/-- No change. -/
def Change.refl : (fs : List Field) → Change fs fs
  | [] => .nil
  | f :: fs => .same f f.req (Change.refl fs)

/-- The value of a variable that nothing was assigned to; nil where Go has nil. -/
def zero (W : Nat → Type) : (t : Ty) → Option (Val W t)
  | .bool => some false
  | .byte => some (0 : UInt8)
  | .i16 => some (0 : BitVec 16)
  | .i32 => some (0 : BitVec 32)
  | .i64 => some (0 : BitVec 64)
  | .double => some (0 : BitVec 64)
  | .str => some ([] : Bytes)
  | .list _ | .set _ | .map .. | .struct _ => none

/-- A field of the reader that was not sent. -/
def absent (W : Nat → Type) (q : Req) (t : Ty) : Option (Val W t) := if q = .default then zero W t else none

/-- The structs within a value, converted. -/
def seenVal {W W' : Nat → Type} (g : (n : Nat) → W n → W' n) : (t : Ty) → Val W t → Val W' t
  | .bool, v | .byte, v | .i16, v | .i32, v | .i64, v | .double, v | .str, v => v
  | .list t, l => List.map (α := Val W t) (seenVal g t) l
  | .set t, l => List.map (α := Val W t) (seenVal g t) l
  | .map k v, l => List.map (α := Val W k × Val W v) (fun e => (seenVal g k e.1, seenVal g v e.2)) l
  | .struct n, w => g n w

/-- What the reader has: the fields that stayed, nothing of those that have gone, new fields as if not assigned. -/
def seenSlots {W W' : Nat → Type} (g : (n : Nat) → W n → W' n) : {fs gs : List Field} → Change fs gs → Slots W fs → Slots W' gs
  | _, _, .nil, _ => ()
  | _, _, .same f q c, s => (match s.1 with
    | some v => some (seenVal g f.ty v)
    | none => absent W' q f.ty, seenSlots g c s.2)
  | _, _, .dropped _ c, s => seenSlots g c s.2
  | _, _, .added h c, s => (absent W' h.req h.ty, seenSlots g c s)

def seen {T T' : Schema} (C : (n : Nat) → Change (T n) (T' n)) : (d n : Nat) → Struct T d n → Struct T' d n
  | 0, _, e => nomatch e
  | d + 1, n, s => seenSlots (seen C d) (C n) s

/-! ### What can be read at all -/

/-- The largest of the numbers. -/
def largest (l : List Nat) : Nat := l.foldr max 0

/-- How deep a value is nested; a number or string is 1. -/
def depthVal {W : Nat → Type} (sub : (n : Nat) → W n → Nat) : (t : Ty) → Val W t → Nat
  | .list t, l => 1 + largest (List.map (α := Val W t) (depthVal sub t) l)
  | .set t, l => 1 + largest (List.map (α := Val W t) (depthVal sub t) l)
  | .map k v, l => 1 + largest (List.map (α := Val W k × Val W v) (fun e => max (depthVal sub k e.1) (depthVal sub v e.2)) l)
  | .struct n, w => sub n w
  | .bool, _ | .byte, _ | .i16, _ | .i32, _ | .i64, _ | .double, _ | .str, _ => 1

def depthSlots {W : Nat → Type} (sub : (n : Nat) → W n → Nat) : (fs : List Field) → Slots W fs → Nat
  | [], _ => 0
  | f :: fs, s => max (match s.1 with
    | some v => depthVal sub f.ty v
    | none => 0) (depthSlots sub fs s.2)

def depth (T : Schema) : (d n : Nat) → Struct T d n → Nat
  | 0, _, e => nomatch e
  | d + 1, n, s => 1 + depthSlots (depth T d) (T n) s

/-- Of every struct within a value. -/
def ValAll {W : Nat → Type} (p : (n : Nat) → W n → Prop) : (t : Ty) → Val W t → Prop
  | .list t, l => All (A := Val W t) (fun v => ValAll p t v) l
  | .set t, l => All (A := Val W t) (fun v => ValAll p t v) l
  | .map k v, l => All (A := Val W k × Val W v) (fun e => ValAll p k e.1 ∧ ValAll p v e.2) l
  | .struct n, w => p n w
  | .bool, _ | .byte, _ | .i16, _ | .i32, _ | .i64, _ | .double, _ | .str, _ => True

/-- The fields that have gone are nested at most 64 deep; the structs within fields that stayed are readable. -/
def SlotsReadable {W : Nat → Type} (sub : (n : Nat) → W n → Nat) (p : (n : Nat) → W n → Prop) :
    {fs gs : List Field} → Change fs gs → Slots W fs → Prop
  | _, _, .nil, _ => True
  | _, _, .same f _ c, s => (∀ v, s.1 = some v → ValAll p f.ty v) ∧ SlotsReadable sub p c s.2
  | _, _, .dropped f c, s => (∀ v, s.1 = some v → depthVal sub f.ty v ≤ 64) ∧ SlotsReadable sub p c s.2
  | _, _, .added _ c, s => SlotsReadable sub p c s

/-- The fields that the reader requires are there. -/
def Given {W : Nat → Type} : {fs gs : List Field} → Change fs gs → Slots W fs → Prop
  | _, _, .nil, _ => True
  | _, _, .same _ q c, s => (q = .required → s.1 ≠ none) ∧ Given c s.2
  | _, _, .dropped _ c, s => Given c s.2
  | _, _, .added g c, s => g.req ≠ .required ∧ Given c s

/-- Both, also in the structs within fields that stayed. -/
def Readable {T T' : Schema} (C : (n : Nat) → Change (T n) (T' n)) : (d n : Nat) → Struct T d n → Prop
  | 0, _, e => nomatch e
  | d + 1, n, s => SlotsReadable (depth T d) (Readable C d) (C n) s ∧ Given (C n) s

/-! ### As values of the wire format -/

def valsOf : List TVal → TVals
  | [] => .nil
  | v :: l => .cons v (valsOf l)

def pairsOf : List (TVal × TVal) → TPairs
  | [] => .nil
  | e :: l => .cons e.1 e.2 (pairsOf l)

/-- The eight bytes of a double, the low one first. -/
def bytesLE (x : BitVec 64) : Bytes :=
  [0, 8, 16, 24, 32, 40, 48, 56].map fun i => UInt8.ofBitVec (x.extractLsb' i 8)

def treeVal {W : Nat → Type} (sub : (n : Nat) → W n → TFields) : (t : Ty) → Val W t → TVal
  | .bool, b => .bool b
  | .byte, b => .byte b
  | .i16, x => .i16 (BitVec.toInt (n := 16) x)
  | .i32, x => .i32 (BitVec.toInt (n := 32) x)
  | .i64, x => .i64 (BitVec.toInt (n := 64) x)
  | .double, x => .double (bytesLE x)
  | .str, s => .str s
  | .list t, l => .list t.ttype (valsOf (List.map (α := Val W t) (treeVal sub t) l))
  | .set t, l => .set t.ttype (valsOf (List.map (α := Val W t) (treeVal sub t) l))
  | .map k v, l => .map k.ttype v.ttype
      (pairsOf (List.map (α := Val W k × Val W v) (fun e => (treeVal sub k e.1, treeVal sub v e.2)) l))
  | .struct n, w => .struct (sub n w)

/-- The fields that are set. -/
def treeSlots {W : Nat → Type} (sub : (n : Nat) → W n → TFields) : (fs : List Field) → Slots W fs → TFields
  | [], _ => .nil
  | f :: fs, s => match s.1 with
    | some v => .cons f.id (treeVal sub f.ty v) (treeSlots sub fs s.2)
    | none => treeSlots sub fs s.2

def tree (T : Schema) : (d n : Nat) → Struct T d n → TFields
  | 0, _, e => nomatch e
  | d + 1, n, s => treeSlots (tree T d) (T n) s

end Gofer.Spec.ThriftStruct
