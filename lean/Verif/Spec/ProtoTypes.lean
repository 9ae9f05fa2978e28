import Verif.Spec.Proto

/-!
# Numeric fields whose type is changed

A number written as one of the varint types and read as another.
-/
namespace Gofer.Spec.Proto

/-- The number that the 64 bits stand for. -/
def VarKind.int : VarKind → BitVec 64 → Int
  | .uint32, x | .uint64, x | .bool, x => x.toNat
  | .int32, x | .int64, x | .sint32, x | .sint64, x => x.toInt

/-- `sint32` and `sint64` have an encoding of their own. -/
def VarKind.zig : VarKind → Bool
  | .sint32 | .sint64 => true
  | _ => false

/-- A number put into a type: the rest modulo 2^32 or 2^64, as in conversions of Go; every number but 0 is true; `sint32`
keeps the sign and takes the rest modulo 2^31 (of the number, or of its complement if it is negative). -/
def VarKind.cast : VarKind → Int → Int
  | .int32, i => i.bmod (2 ^ 32)
  | .uint32, i => i % 2 ^ 32
  | .int64, i => i.bmod (2 ^ 64)
  | .uint64, i => i % 2 ^ 64
  | .bool, i => if i = 0 then 0 else 1
  | .sint32, i => if 0 ≤ i then i % 2 ^ 31 else -1 - (-1 - i) % 2 ^ 31
  | .sint64, i => i

/-- The same in 64 bits. -/
def convNum (k k' : VarKind) (x : BitVec 64) : BitVec 64 := BitVec.ofInt 64 (k'.cast (k.int x))

/-- The same field, perhaps with another varint type of the same encoding. -/
def Field.Retypes (f g : Field) : Prop :=
  g.num = f.num ∧ g.card = f.card ∧
    (g.kind = f.kind ∨ ∃ k k', f.kind = .varint k ∧ g.kind = .varint k' ∧ k.zig = k'.zig)

/-- The same schema but for the types of some numbers. -/
def Retyped (T T' : Schema) : Prop := ∀ t, List.Forall₂ Field.Retypes (T t) (T' t)

/-- A value after the change; `sub` for messages. -/
def convVal {W : Type} (sub : Nat → W → W) : Kind → Kind → Val W → Val W
  | .varint k, .varint k', .num x => .num (convNum k k' x)
  | .msg t, _, .msg w => .msg (sub t w)
  | _, _, v => v

/-- A field without presence does not show a zero. -/
def visible {W : Type} (f : Field) : Val W → Bool
  | .num x => !(f.card == .implicit) || x != 0
  | _ => true

def convFields {W : Type} (sub : Nat → W → W) : List Field → List Field → List (List (Val W)) → List (List (Val W))
  | f :: fs, g :: gs, vs :: vss => (vs.map (convVal sub f.kind g.kind)).filter (visible g) :: convFields sub fs gs vss
  | _, _, _ => []

/-- A message of the schema `T` as one of the schema `T'`. -/
def conv (T T' : Schema) : (d : Nat) → Nat → Msg d → Msg d
  | 0, t, m => (⟨convFields (fun _ e => e) (T t) (T' t) (Body.fields m), Body.unknown m⟩ : Body Empty)
  | d + 1, t, m => (⟨convFields (conv T T' d) (T t) (T' t) (Body.fields m), Body.unknown m⟩ : Body (Msg d))

end Gofer.Spec.Proto
