import Verif.Model.Gob

/-!
# What becomes of a value that is encoded and decoded (specification)

`back` says what comes back: nil for empty slices, an empty map for a nil map, and of a field that holds "nothing" (zero, an empty
string or slice, a nil map, a pointer to nothing) the zero value of its type.
-/
namespace Gofer.Spec.Gob
open Gofer.Gob

/-- "Nothing": false, 0 (of either sign), an empty string or slice, a nil map, a nil pointer, a pointer to nothing. A struct is always
something. -/
def nothing : (t : Ty) → t.Val → Prop
  | .bool, v => v = false
  | .int, v => v = (0 : BitVec 64)
  | .uint, v => v = (0 : BitVec 64)
  | .float, v => v = (0 : BitVec 64) ∨ v = (0x8000000000000000 : BitVec 64)
  | .str, v => v = ([] : List UInt8)
  | .bytes, v => v = (none : Option (List UInt8)) ∨ v = (some [] : Option (List UInt8))
  | .slice t, v => v = (none : Option (List t.Val)) ∨ v = (some [] : Option (List t.Val))
  | .map k w, v => v = (none : Option (List (k.Val × w.Val)))
  | .ptr t, v => v = (none : Option t.Val) ∨ ∃ x, v = (some x : Option t.Val) ∧ nothing t x
  | .struct _, _ => False

open Classical in
mutual
/-- What comes back of a value. -/
noncomputable def back : (t : Ty) → t.Val → t.Val
  | .bool, v => v
  | .int, v => v
  | .uint, v => v
  | .float, v => v
  | .str, v => v
  | .bytes, v =>
    match (show Option (List UInt8) from v) with
    | some (a :: r) => (some (a :: r) : Option (List UInt8))
    | _ => (none : Option (List UInt8))
  | .slice t, v =>
    match (show Option (List t.Val) from v) with
    | some (a :: r) => (some ((a :: r).map (back t)) : Option (List t.Val))
    | _ => (none : Option (List t.Val))
  | .map k w, v =>
    match (show Option (List (k.Val × w.Val)) from v) with
    | some l => (some (l.map fun e => (back k e.1, back w e.2)) : Option (List (k.Val × w.Val)))
    | none => (some [] : Option (List (k.Val × w.Val)))
  | .ptr t, v =>
    match (show Option t.Val from v) with
    | some x => (some (back t x) : Option t.Val)
    | none => (none : Option t.Val)
  | .struct f, v => backs f v
/-- What comes back of fields. -/
noncomputable def backs : (f : Fields) → f.Vals → f.Vals
  | .nil, _ => ()
  | .cons t f, v => (if nothing t (show t.Val × f.Vals from v).1 then zero t else back t (show t.Val × f.Vals from v).1,
      backs f (show t.Val × f.Vals from v).2)
end

mutual
/-- Values that come back unchanged: no slice is empty but not nil, no map is nil except in a field, no field holds a negative zero or
a pointer to nothing. -/
def Plain : (t : Ty) → t.Val → Prop
  | .bool, _ => True
  | .int, _ => True
  | .uint, _ => True
  | .float, _ => True
  | .str, _ => True
  | .bytes, v => v ≠ (some [] : Option (List UInt8))
  | .slice t, v => v ≠ (some [] : Option (List t.Val)) ∧ ∀ l, v = (some l : Option (List t.Val)) → ∀ x ∈ l, Plain t x
  | .map k w, v => v ≠ (none : Option (List (k.Val × w.Val))) ∧
      ∀ l, v = (some l : Option (List (k.Val × w.Val))) → ∀ e ∈ l, Plain k e.1 ∧ Plain w e.2
  | .ptr t, v => ∀ x, v = (some x : Option t.Val) → Plain t x
  | .struct f, v => Plains f v
def Plains : (f : Fields) → f.Vals → Prop
  | .nil, _ => True
  | .cons t f, v => (nothing t (show t.Val × f.Vals from v).1 ∧ (show t.Val × f.Vals from v).1 = zero t ∨
      ¬ nothing t (show t.Val × f.Vals from v).1 ∧ Plain t (show t.Val × f.Vals from v).1) ∧ Plains f (show t.Val × f.Vals from v).2
end

/-- Types without structs. -/
def NoStruct : Ty → Prop
  | .slice t => NoStruct t
  | .map k w => NoStruct k ∧ NoStruct w
  | .ptr t => NoStruct t
  | .struct _ => False
  | _ => True

/-- The number of fields. -/
def count : Fields → Nat
  | .nil => 0
  | .cons _ f => count f + 1

mutual
/-- Values that can exist: lengths and numbers of fields are below 2^63. -/
def Exists : (t : Ty) → t.Val → Prop
  | .bool, _ => True
  | .int, _ => True
  | .uint, _ => True
  | .float, _ => True
  | .str, v => (show List UInt8 from v).length < 2 ^ 63
  | .bytes, v => ∀ b, v = (some b : Option (List UInt8)) → b.length < 2 ^ 63
  | .slice t, v => ∀ l, v = (some l : Option (List t.Val)) → l.length < 2 ^ 63 ∧ ∀ x ∈ l, Exists t x
  | .map k w, v => ∀ l, v = (some l : Option (List (k.Val × w.Val))) → l.length < 2 ^ 63 ∧ ∀ e ∈ l, Exists k e.1 ∧ Exists w e.2
  | .ptr t, v => ∀ x, v = (some x : Option t.Val) → Exists t x
  | .struct f, v => count f < 2 ^ 63 ∧ Existss f v
def Existss : (f : Fields) → f.Vals → Prop
  | .nil, _ => True
  | .cons t f, v => Exists t (show t.Val × f.Vals from v).1 ∧ Existss f (show t.Val × f.Vals from v).2
end

mutual
/-- Values with a nil pointer as an element, key or entry of a slice or map, at any depth. -/
def NilElement : (t : Ty) → t.Val → Prop
  | .slice t, v => ∃ l, v = (some l : Option (List t.Val)) ∧ ∃ x ∈ l, nilPtr t x = true ∨ NilElement t x
  | .map k w, v => ∃ l, v = (some l : Option (List (k.Val × w.Val))) ∧
      ∃ e ∈ l, (nilPtr k e.1 = true ∨ NilElement k e.1) ∨ (nilPtr w e.2 = true ∨ NilElement w e.2)
  | .ptr t, v => ∃ x, v = (some x : Option t.Val) ∧ NilElement t x
  | .struct f, v => NilElements f v
  | _, _ => False
def NilElements : (f : Fields) → f.Vals → Prop
  | .nil, _ => False
  | .cons t f, v => NilElement t (show t.Val × f.Vals from v).1 ∨ NilElements f (show t.Val × f.Vals from v).2
end

end Gofer.Spec.Gob
