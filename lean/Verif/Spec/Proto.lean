import Verif.Spec.Json

/-!
# Protocol buffer messages, as their users see them

A schema, the messages of a schema, when two of them merge into a third. Nothing here speaks of encodings, except
that fields unknown to a program are kept as the bytes they came in.
-/
namespace Gofer.Spec.Proto

abbrev Bytes := List UInt8

/-- The numeric kinds that are sent as varints (an enum is an `int32`). -/
inductive VarKind
  | int32 | int64 | uint32 | uint64 | sint32 | sint64 | bool
  deriving DecidableEq

/-- The kinds of a field. `fixed32` stands for fixed32, sfixed32 and float, `fixed64` for fixed64, sfixed64 and
double: their values are the 32 or 64 bits. `msg t` is the message type number `t` of the schema. -/
inductive Kind
  | varint (k : VarKind)
  | fixed32
  | fixed64
  | string
  | bytes
  | msg (t : Nat)
  deriving DecidableEq

/-- `implicit`: a proto3 field without presence (its zero value is the same as "not set"); `optional`: with presence;
`repeated`: written one by one; `packed`: written as one block. -/
inductive Card
  | implicit | optional | repeated | packed
  deriving DecidableEq

structure Field where
  num : Nat
  kind : Kind
  card : Card
  deriving DecidableEq

/-- A schema: the fields of the message types. Types may refer to each other and to themselves. -/
abbrev Schema := Nat → List Field

/-- More than one value. -/
def Field.many (f : Field) : Prop := f.card = .repeated ∨ f.card = .packed

/-- What a `.proto` file may say: numbers from 1 to 2^29 - 1; messages have presence or are repeated; only numbers are
packed. -/
def Field.Legal (f : Field) : Prop :=
  1 ≤ f.num ∧ f.num < 2 ^ 29 ∧
    match f.kind with
    | .msg _ => f.card = .optional ∨ f.card = .repeated
    | .string | .bytes => f.card ≠ .packed
    | _ => True

/-- Every message type has legal fields with different numbers, listed in ascending order. -/
def Legal (T : Schema) : Prop := ∀ t, (T t).Pairwise (fun f g => f.num < g.num) ∧ ∀ f ∈ T t, f.Legal

/-- A value: a number held in 64 bits (an `int32` sign-extended, a bool as 0 or 1, a float as its bits), a string or
byte string, a message. -/
inductive Val (W : Type)
  | num (x : BitVec 64)
  | str (b : Bytes)
  | msg (w : W)
  deriving DecidableEq

/-- A message: for every field of its type the values it has (none, one, or many if repeated), and the bytes of the
fields that the program does not know. A field without presence that is zero has no value. -/
structure Body (W : Type) where
  fields : List (List (Val W))
  unknown : Bytes
  deriving DecidableEq

/-- Messages with at most `d` levels of messages within them. -/
def Msg : Nat → Type
  | 0 => Body Empty
  | d + 1 => Body (Msg d)

/-- The 64 bits hold a value of that Go type. -/
def VarKind.Fits : VarKind → BitVec 64 → Prop
  | .int32, x | .sint32, x => x = (x.setWidth 32).signExtend 64
  | .uint32, x => x.toNat < 2 ^ 32
  | .bool, x => x = 0 ∨ x = 1
  | .int64, _ | .uint64, _ | .sint64, _ => True

/-- A value of the kind; `good` for messages. -/
def ValOk {W : Type} (good : Nat → W → Prop) : Kind → Val W → Prop
  | .varint k, .num x => k.Fits x
  | .fixed32, .num x => x.toNat < 2 ^ 32
  | .fixed64, .num _ => True
  | .string, .str _ => True
  | .bytes, .str _ => True
  | .msg t, .msg w => good t w
  | _, _ => False

/-- The value that is the same as "not set" for a field without presence. -/
def IsZero {W : Type} : Val W → Prop
  | .num x => x = 0
  | .str b => b = []
  | .msg _ => False

/-- The values of a field: of its kind, one at most unless repeated, not zero if without presence. -/
def ValsOk {W : Type} (good : Nat → W → Prop) (f : Field) (vs : List (Val W)) : Prop :=
  (∀ v ∈ vs, ValOk good f.kind v) ∧
    match f.card with
    | .implicit => vs.length ≤ 1 ∧ ∀ v ∈ vs, ¬ IsZero v
    | .optional => vs.length ≤ 1
    | _ => True

/-- A number in base 128, the low digits first, 128 added to all but the last byte; not necessarily the shortest. -/
inductive Varint : Nat → Bytes → Prop
  | last (b : UInt8) : b < 128 → Varint b.toNat [b]
  | more (b : UInt8) (n : Nat) (r : Bytes) : 128 ≤ b → Varint n r → Varint (b.toNat - 128 + 128 * n) (b :: r)

/-- The bytes of a field after its tag, by wire type: a varint of 64 bits in at most ten bytes, eight bytes, a length and so many
bytes, four bytes. -/
inductive Payload : Nat → Bytes → Prop
  | varint (n : Nat) (p : Bytes) : Varint n p → n < 2 ^ 64 → p.length ≤ 10 → Payload 0 p
  | fixed64 (p : Bytes) : p.length = 8 → Payload 1 p
  | bytes (l p : Bytes) : Varint p.length l → p.length < 2 ^ 64 → l.length ≤ 10 → Payload 2 (l ++ p)
  | fixed32 (p : Bytes) : p.length = 4 → Payload 5 p

/-- The wire types a field can be read from. -/
def Field.Takes (f : Field) (wt : Nat) : Prop :=
  match f.kind with
  | .varint _ => wt = 0 ∨ (wt = 2 ∧ f.many)
  | .fixed64 => wt = 1 ∨ (wt = 2 ∧ f.many)
  | .fixed32 => wt = 5 ∨ (wt = 2 ∧ f.many)
  | .string | .bytes | .msg _ => wt = 2

/-- The number of a field and its wire type in the shortest varint, then the payload: a field of no use to a program
with the fields `fs`. -/
def Stranger (fs : List Field) (b : Bytes) : Prop :=
  ∃ (num wt : Nat) (tag p : Bytes), 1 ≤ num ∧ num < 2 ^ 29 ∧ Varint (8 * num + wt) tag ∧
    (∀ tag', Varint (8 * num + wt) tag' → tag.length ≤ tag'.length) ∧ Payload wt p ∧
    (∀ f ∈ fs, f.num = num → ¬ f.Takes wt) ∧ b = tag ++ p

/-- A message of a type. -/
def BodyOk {W : Type} (good : Nat → W → Prop) (fs : List Field) (m : Body W) : Prop :=
  List.Forall₂ (ValsOk good) fs m.fields ∧ ∃ us : List Bytes, (∀ u ∈ us, Stranger fs u) ∧ m.unknown = us.flatten

def Ok (T : Schema) : (d : Nat) → Nat → Msg d → Prop
  | 0, t, m => BodyOk (fun _ e => nomatch e) (T t) m
  | d + 1, t, m => BodyOk (Ok T d) (T t) m

/-- All values of kind string are texts, also those of the messages within. -/
def BodyTexts {W : Type} (texts : Nat → W → Prop) (fs : List Field) (m : Body W) : Prop :=
  ∀ p ∈ fs.zip m.fields, ∀ v ∈ p.2,
    match p.1.kind, v with
    | .string, .str b => Spec.Json.Text b
    | .msg t, .msg w => texts t w
    | _, _ => True

def Texts (T : Schema) : (d : Nat) → Nat → Msg d → Prop
  | 0, t, m => BodyTexts (fun _ e => nomatch e) (T t) m
  | d + 1, t, m => BodyTexts (Texts T d) (T t) m

/-- There are messages within messages down to level `n` (`n = 0`: always). -/
def Reaches : (n d : Nat) → Msg d → Prop
  | 0, _, _ => True
  | _ + 1, 0, _ => False
  | n + 1, d + 1, m => ∃ vs ∈ Body.fields m, ∃ v ∈ vs, ∃ w, v = .msg w ∧ Reaches n d w

/-- The message without any field set. -/
def bodyEmpty {W : Type} (fs : List Field) : Body W := ⟨fs.map (fun _ => []), []⟩

def empty (T : Schema) : (d : Nat) → Nat → Msg d
  | 0, t => (bodyEmpty (T t) : Body Empty)
  | d + 1, t => (bodyEmpty (T t) : Body (Msg d))

/-- The values of a field after merging: those of `y` after those of `x` if repeated; messages are merged; otherwise
the value of `y`, if it has one. -/
def mergeVals {W : Type} (mg : Nat → W → W → W) (f : Field) (x y : List (Val W)) : List (Val W) :=
  match f.card with
  | .repeated | .packed => x ++ y
  | .implicit | .optional =>
    match f.kind, x, y with
    | .msg t, [.msg a], [.msg b] => [.msg (mg t a b)]
    | _, x, [] => x
    | _, _, y => y

def mergeFields {W : Type} (mg : Nat → W → W → W) : List Field → List (List (Val W)) → List (List (Val W)) →
    List (List (Val W))
  | f :: fs, x :: xs, y :: ys => mergeVals mg f x y :: mergeFields mg fs xs ys
  | _, _, _ => []

/-- `proto.Merge`: `y` into `x`. -/
def mergeBody {W : Type} (mg : Nat → W → W → W) (fs : List Field) (x y : Body W) : Body W :=
  ⟨mergeFields mg fs x.fields y.fields, x.unknown ++ y.unknown⟩

def merge (T : Schema) : (d : Nat) → Nat → Msg d → Msg d → Msg d
  | 0, t, x, y => mergeBody (fun _ e _ => e) (T t) x y
  | d + 1, t, x, y => mergeBody (merge T d) (T t) x y

/-! ### Two versions of a schema -/

/-- What an older version says of a field: nothing, or the same but for packing. -/
abbrev Older := Nat → Field → Option Field

def Older.Fine (old : Older) : Prop := ∀ t f g, old t f = some g →
  g.num = f.num ∧ g.kind = f.kind ∧ (g.card = f.card ∨ (f.many ∧ g.many))

/-- The older schema. -/
def older (old : Older) (T : Schema) : Schema := fun t => (T t).filterMap (old t)

/-- The values of the fields that the older version knows. -/
def seenFields {W : Type} (old : Field → Option Field) (sub : Nat → W → W) : List Field → List (List (Val W)) →
    List (List (Val W))
  | f :: fs, v :: vs =>
    match old f with
    | none => seenFields old sub fs vs
    | some _ =>
      v.map (fun x => match f.kind, x with | .msg t, .msg w => .msg (sub t w) | _, x => x) :: seenFields old sub fs vs
  | _, _ => []

/-- The message without what the older version does not know, and without any unknown bytes. -/
def seen (T : Schema) (old : Older) : (d : Nat) → Nat → Msg d → Msg d
  | 0, t, m => (⟨seenFields (old t) (fun _ e => e) (T t) (Body.fields m), []⟩ : Body Empty)
  | d + 1, t, m => (⟨seenFields (old t) (seen T old d) (T t) (Body.fields m), []⟩ : Body (Msg d))

end Gofer.Spec.Proto
