import Verif.Model.GobType
import Verif.Spec.Gob
import Mathlib.Data.List.Forall2

/-!
# What becomes of a value that is encoded as one type and decoded as another (specification)

Nothing here speaks of bytes, descriptions or numbers of types: only of the two types and the two values.
-/
namespace Gofer.Spec.GobType
open Gofer.Gob Gofer.Spec.Gob Gofer.GobType

/-- A value with its type. -/
abbrev Any := Σ t : GTy, t.ty.Val

/-- What is behind the pointers; none if there is nothing. -/
def behind : (s : GTy) → s.ty.Val → Option Any
  | .ptr s, v => (show Option s.ty.Val from v).bind (behind s)
  | .bool, v => some ⟨.bool, v⟩
  | .int n, v => some ⟨.int n, v⟩
  | .uint n, v => some ⟨.uint n, v⟩
  | .float, v => some ⟨.float, v⟩
  | .str, v => some ⟨.str, v⟩
  | .bytes, v => some ⟨.bytes, v⟩
  | .slice t, v => some ⟨.slice t, v⟩
  | .map k e, v => some ⟨.map k e, v⟩
  | .struct n f, v => some ⟨.struct n f, v⟩

/-- The field with this name. -/
def field : (f : GFields) → f.ty.Vals → Name → Option Any
  | .nil, _, _ => none
  | .cons m t f, v, n => if m = n then some ⟨t, (show t.ty.Val × f.ty.Vals from v).1⟩ else field f (show t.ty.Val × f.ty.Vals from v).2 n

/-- The field with this name, if there is one and it holds something. -/
def Holds (f : GFields) (v : f.ty.Vals) (n : Name) (x : Any) : Prop := field f v n = some x ∧ ¬ nothing x.1.ty x.2

mutual
/-- `Came t s v w`: the value `v` of the type `s` can come out as the value `w` of the type `t`. Pointers do not count on the side of
`s` and are made on the side of `t`; numbers are the same and have to fit; slices, maps and structs are made of what came of their
elements, entries and fields; empty slices are nil and maps are not nil. -/
def Came : (t : GTy) → (s : GTy) → s.ty.Val → t.ty.Val → Prop
  | .bool, s, v, w => behind s v = some ⟨.bool, w⟩
  | .int n, s, v, w => (∃ m, behind s v = some ⟨.int m, w⟩) ∧ -2 ^ (n - 1) ≤ (show BitVec 64 from w).toInt ∧
      (show BitVec 64 from w).toInt < 2 ^ (n - 1)
  | .uint n, s, v, w => (∃ m, behind s v = some ⟨.uint m, w⟩) ∧ (show BitVec 64 from w).toNat < 2 ^ n
  | .float, s, v, w => behind s v = some ⟨.float, w⟩
  | .str, s, v, w => behind s v = some ⟨.str, w⟩
  | .bytes, s, v, w => ∃ x : Option (List UInt8), behind s v = some ⟨.bytes, x⟩ ∧
      (x.getD [] = [] ∧ w = (none : Option (List UInt8)) ∨ x.getD [] ≠ [] ∧ w = x)
  | .slice t, s, v, w => ∃ (s' : GTy) (x : Option (List s'.ty.Val)), behind s v = some ⟨.slice s', x⟩ ∧
      (x.getD [] = [] ∧ w = (none : Option (List t.ty.Val)) ∨
        x.getD [] ≠ [] ∧ ∃ l, w = (some l : Option (List t.ty.Val)) ∧ List.Forall₂ (fun a b => Came t s' a b) (x.getD []) l)
  | .map k e, s, v, w => ∃ (k' e' : GTy) (x : Option (List (k'.ty.Val × e'.ty.Val))), behind s v = some ⟨.map k' e', x⟩ ∧
      ∃ l, w = (some l : Option (List (k.ty.Val × e.ty.Val))) ∧
        List.Forall₂ (fun a b => Came k k' a.1 b.1 ∧ Came e e' a.2 b.2) (x.getD []) l
  | .ptr t, s, v, w => ∃ y, w = (some y : Option t.ty.Val) ∧ Came t s v y
  | .struct _ f, s, v, w => ∃ (n : Name) (f' : GFields) (x : f'.ty.Vals), behind s v = some ⟨.struct n f', x⟩ ∧ Cames f f' x w
/-- Fields: of each, what came of the field with the same name if that holds something, and otherwise its zero value. -/
def Cames : (f : GFields) → (f' : GFields) → f'.ty.Vals → f.ty.Vals → Prop
  | .nil, _, _, _ => True
  | .cons n t f, f', v, w => ((∃ x : Any, Holds f' v n x ∧ Came t x.1 x.2 (show t.ty.Val × f.ty.Vals from w).1) ∨
      (¬ ∃ x : Any, Holds f' v n x) ∧ (show t.ty.Val × f.ty.Vals from w).1 = zero t.ty) ∧ Cames f f' v (show t.ty.Val × f.ty.Vals from w).2
end

mutual
/-- `Fits t s`: values of the type `s` are accepted for the type `t`. Pointers and the sizes of numbers do not count; fields of the same
name have to fit, whether they hold something or not. -/
def Fits : (t : GTy) → (s : GTy) → Prop
  | .bool, s => s.base = .bool
  | .int _, s => ∃ m, s.base = .int m
  | .uint _, s => ∃ m, s.base = .uint m
  | .float, s => s.base = .float
  | .str, s => s.base = .str
  | .bytes, s => s.base = .bytes
  | .slice t, s => ∃ s', s.base = .slice s' ∧ Fits t s'
  | .map k e, s => ∃ k' e', s.base = .map k' e' ∧ Fits k k' ∧ Fits e e'
  | .ptr t, s => Fits t s
  | .struct _ f, s => ∃ n f', s.base = .struct n f' ∧ Fitss f f'
def Fitss : (f : GFields) → (f' : GFields) → Prop
  | .nil, _ => True
  | .cons n t f, f' => (∀ s, find f' n = some s → Fits t s) ∧ Fitss f f'
end

mutual
/-- A number that is read does not fit the variable for it. -/
def Overflows : (t : GTy) → (s : GTy) → s.ty.Val → Prop
  | .int n, s, v => ∃ (m : Nat) (x : BitVec 64), behind s v = some ⟨.int m, x⟩ ∧ ¬ (-2 ^ (n - 1) ≤ x.toInt ∧ x.toInt < 2 ^ (n - 1))
  | .uint n, s, v => ∃ (m : Nat) (x : BitVec 64), behind s v = some ⟨.uint m, x⟩ ∧ ¬ x.toNat < 2 ^ n
  | .slice t, s, v => ∃ (s' : GTy) (x : Option (List s'.ty.Val)), behind s v = some ⟨.slice s', x⟩ ∧ ∃ a ∈ x.getD [], Overflows t s' a
  | .map k e, s, v => ∃ (k' e' : GTy) (x : Option (List (k'.ty.Val × e'.ty.Val))), behind s v = some ⟨.map k' e', x⟩ ∧
      ∃ a ∈ x.getD [], Overflows k k' a.1 ∨ Overflows e e' a.2
  | .ptr t, s, v => Overflows t s v
  | .struct _ f, s, v => ∃ (n : Name) (f' : GFields) (x : f'.ty.Vals), behind s v = some ⟨.struct n f', x⟩ ∧ Overflowss f f' x
  | _, _, _ => False
def Overflowss : (f : GFields) → (f' : GFields) → f'.ty.Vals → Prop
  | .nil, _, _ => False
  | .cons n t f, f', v => (∃ x : Any, Holds f' v n x ∧ Overflows t x.1 x.2) ∨ Overflowss f f' v
end

mutual
/-- Numbers are in the range of their types, as they are in every Go program. -/
def Sized : (s : GTy) → s.ty.Val → Prop
  | .int n, v => -2 ^ (n - 1) ≤ (show BitVec 64 from v).toInt ∧ (show BitVec 64 from v).toInt < 2 ^ (n - 1)
  | .uint n, v => (show BitVec 64 from v).toNat < 2 ^ n
  | .slice t, v => ∀ l, v = (some l : Option (List t.ty.Val)) → ∀ x ∈ l, Sized t x
  | .map k e, v => ∀ l, v = (some l : Option (List (k.ty.Val × e.ty.Val))) → ∀ x ∈ l, Sized k x.1 ∧ Sized e x.2
  | .ptr t, v => ∀ x, v = (some x : Option t.ty.Val) → Sized t x
  | .struct _ f, v => Sizeds f v
  | _, _ => True
def Sizeds : (f : GFields) → f.ty.Vals → Prop
  | .nil, _ => True
  | .cons _ t f, v => Sized t (show t.ty.Val × f.ty.Vals from v).1 ∧ Sizeds f (show t.ty.Val × f.ty.Vals from v).2
end

mutual
/-- `Wider t s`: `t` is another version of `s` in which numbers have the same size or a larger one, pointers may have come or gone, and
structs may have fields more, fewer or in another order. -/
def Wider : (t : GTy) → (s : GTy) → Prop
  | .bool, s => s.base = .bool
  | .int n, s => ∃ m, s.base = .int m ∧ m ≤ n
  | .uint n, s => ∃ m, s.base = .uint m ∧ m ≤ n
  | .float, s => s.base = .float
  | .str, s => s.base = .str
  | .bytes, s => s.base = .bytes
  | .slice t, s => ∃ s', s.base = .slice s' ∧ Wider t s'
  | .map k e, s => ∃ k' e', s.base = .map k' e' ∧ Wider k k' ∧ Wider e e'
  | .ptr t, s => Wider t s
  | .struct _ f, s => ∃ n f', s.base = .struct n f' ∧ Widers f f'
def Widers : (f : GFields) → (f' : GFields) → Prop
  | .nil, _ => True
  | .cons n t f, f' => (∀ s, find f' n = some s → Wider t s) ∧ Widers f f'
end

/-- The names of the fields. -/
def names : GFields → List Name
  | .nil => []
  | .cons n _ f => n :: names f

/-- For structs: both have fields, but no name in common. -/
def Strangers (t s : GTy) : Prop :=
  ∃ n f n' f', t.base = .struct n f ∧ s.base = .struct n' f' ∧ names f ≠ [] ∧ names f' ≠ [] ∧ ∀ m ∈ names f, m ∉ names f'

mutual
/-- Go types: the fields of a struct have different names (and there are fewer than 2^31 of them, with names shorter than that). -/
def Proper : GTy → Prop
  | .slice t => Proper t
  | .map k e => Proper k ∧ Proper e
  | .ptr t => Proper t
  | .struct _ f => (names f).length < 2 ^ 31 ∧ Propers f
  | _ => True
def Propers : GFields → Prop
  | .nil => True
  | .cons n t f => n ∉ names f ∧ n.length < 2 ^ 31 ∧ Proper t ∧ Propers f
end

mutual
/-- The slice, map and struct types within a type, itself included. -/
def parts : GTy → List GTy
  | .slice t => .slice t :: parts t
  | .map k e => .map k e :: (parts k ++ parts e)
  | .ptr t => parts t
  | .struct n f => .struct n f :: partss f
  | _ => []
def partss : GFields → List GTy
  | .nil => []
  | .cons _ t f => parts t ++ partss f
end

/-- What a process that runs has given to the types within a type: numbers from 64 on, different ones to different types; and the
descriptions are not longer than can be sent. -/
structure Lawful (reg : Registry) (s : GTy) : Prop where
  ids : ∀ t ∈ parts s, 64 ≤ (reg.id t).toNat ∧ (reg.id t).toNat < 2 ^ 31
  inj : ∀ t ∈ parts s, ∀ u ∈ parts s, reg.id t = reg.id u → t = u
  names : ∀ t ∈ parts s, (reg.name t).length < 2 ^ 31
  short : ∀ d ∈ (send reg s []).1, d.2.length < 2 ^ 32

end Gofer.Spec.GobType
