import Verif.Spec.JsonDoc
/-!
# JSON and Go structs

The types, their values, JSON documents of any form, and how values of one type look to another.
-/
namespace Gofer.Spec.JsonStruct
open Gofer.Spec.Json (Bytes Text Fixed StrDoc Space NatDoc filled)

/-! ## Types and values -/

mutual
/-- `bool`; `int8` to `int64` and `uint8` to `uint64`; `string`; `*T`; `[]T`; `map[string]T`; structs. -/
inductive T
  | bool
  | int (signed : Bool) (bits : Nat)
  | str
  | ptr (t : T)
  | list (t : T)
  | map (t : T)
  | struct (fs : Fields)

/-- The fields of a struct: the name (that of the tag, or of the field), whether it has `omitempty`, the type. -/
inductive Fields
  | nil
  | cons (name : Bytes) (brief : Bool) (t : T) (rest : Fields)
end

structure Field where
  name : Bytes
  brief : Bool
  t : T

def Fields.toList : Fields → List Field
  | .nil => []
  | .cons n o t fs => ⟨n, o, t⟩ :: fs.toList

/-- The struct with a further field at its end. -/
def Fields.snoc : Fields → Field → Fields
  | .nil, f => .cons f.name f.brief f.t .nil
  | .cons n o t fs, f => .cons n o t (fs.snoc f)

/-- The values. `nil` is the nil pointer, slice or map. A slice has elements, and memory behind them that nobody sees; where nothing is given there, it is zero.
A map is given by its entries in the order of the keys. -/
inductive V
  | nil
  | bool (b : Bool)
  | int (i : Int)
  | str (s : Bytes)
  | ptr (v : V)
  | list (l : List V) (behind : List V)
  | map (l : List (Bytes × V))
  | struct (l : List V)

mutual
/-- The zero value. -/
def zero : T → V
  | .bool => .bool false
  | .int _ _ => .int 0
  | .str => .str []
  | .ptr _ => .nil
  | .list _ => .nil
  | .map _ => .nil
  | .struct fs => .struct (zeros fs)

def zeros : Fields → List V
  | .nil => []
  | .cons _ _ t fs => zero t :: zeros fs
end

/-- The numbers of an integer type. -/
def InRange (signed : Bool) (bits : Nat) (i : Int) : Prop :=
  if signed then -(2 : Int) ^ (bits - 1) ≤ i ∧ i < 2 ^ (bits - 1) else 0 ≤ i ∧ i < 2 ^ bits

mutual
/-- `v` is a value of type `t`. -/
def Is : T → V → Prop
  | .bool, v => ∃ b, v = .bool b
  | .int s n, v => ∃ i, v = .int i ∧ InRange s n i
  | .str, v => ∃ s, v = .str s
  | .ptr t, v => v = .nil ∨ ∃ u, v = .ptr u ∧ Is t u
  | .list t, v => v = .nil ∨ ∃ l b, v = .list l b ∧ (∀ x ∈ l, Is t x) ∧ ∀ x ∈ b, Is t x
  | .map t, v => v = .nil ∨ ∃ l, v = .map l ∧ l.Pairwise (fun a b => a.1 < b.1) ∧ ∀ e ∈ l, Is t e.2
  | .struct fs, v => ∃ l, v = .struct l ∧ IsF fs l

def IsF : Fields → List V → Prop
  | .nil, l => l = []
  | .cons _ _ t fs, l => ∃ v r, l = v :: r ∧ Is t v ∧ IsF fs r
end

mutual
/-- Integers have at most 64 bits, `[]uint8` is left out (it is written as base64), and the names in a struct are different texts. -/
def Good : T → Prop
  | .bool => True
  | .int _ n => 1 ≤ n ∧ n ≤ 64
  | .str => True
  | .ptr t => Good t
  | .list t => Good t ∧ t ≠ .int false 8
  | .map t => Good t
  | .struct fs => (fs.toList.map (·.name)).Nodup ∧ GoodF fs

def GoodF : Fields → Prop
  | .nil => True
  | .cons n _ t fs => Text n ∧ Good t ∧ GoodF fs
end

mutual
/-- How deeply slices, maps and structs are nested. -/
def depth : T → Nat
  | .bool => 0
  | .int _ _ => 0
  | .str => 0
  | .ptr t => depth t
  | .list t => depth t + 1
  | .map t => depth t + 1
  | .struct fs => depthF fs + 1

def depthF : Fields → Nat
  | .nil => 0
  | .cons _ _ t fs => max (depth t) (depthF fs)
end

/-- The values that are written as null: nil, and pointers to such. -/
inductive Null : V → Prop
  | nil : Null .nil
  | ptr (v : V) : Null v → Null (.ptr v)

/-- The values that `omitempty` leaves out. -/
def Empty (v : V) : Prop := v = .nil ∨ v = .bool false ∨ v = .int 0 ∨ v = .str [] ∨ (∃ b, v = .list [] b) ∨ v = .map []

mutual
/-- Nothing in the value is lost by JSON: strings are texts; no pointer leads to nil; nothing is behind the elements of slices; and what `omitempty` leaves out is
the zero value. -/
def Plain : T → V → Prop
  | .bool, _ => True
  | .int _ _, _ => True
  | .str, v => ∀ s, v = .str s → Text s
  | .ptr t, v => ∀ u, v = .ptr u → ¬ Null u ∧ Plain t u
  | .list t, v => ∀ l b, v = .list l b → b = [] ∧ ∀ x ∈ l, Plain t x
  | .map t, v => ∀ l, v = .map l → ∀ e ∈ l, Text e.1 ∧ Plain t e.2
  | .struct fs, v => ∀ l, v = .struct l → PlainF fs l

def PlainF : Fields → List V → Prop
  | .nil, _ => True
  | .cons _ o t fs, l => ∀ v r, l = v :: r → (o = true → Empty v → v = zero t) ∧ Plain t v ∧ PlainF fs r
end

mutual
/-- `w` is what JSON makes of `v`: bytes that begin no character become U+FFFD, keys that become equal are assigned in the order they had, pointers to nil become nil,
and what `omitempty` leaves out becomes the zero value. -/
def Back : T → V → V → Prop
  | .bool, v, w => w = v
  | .int _ _, v, w => w = v
  | .str, v, w => ∃ s s', v = .str s ∧ w = .str s' ∧ Fixed s s'
  | .ptr t, v, w => (Null v ∧ w = .nil) ∨ ∃ u x, v = .ptr u ∧ ¬ Null u ∧ w = .ptr x ∧ Back t u x
  | .list t, v, w => (v = .nil ∧ w = .nil) ∨ ∃ l b l', v = .list l b ∧ w = .list l' [] ∧ List.Forall₂ (Back t) l l'
  | .map t, v, w => (v = .nil ∧ w = .nil) ∨
      ∃ l m, v = .map l ∧ w = .map (filled m) ∧ List.Forall₂ (fun e e' => Fixed e.1 e'.1 ∧ Back t e.2 e'.2) l m
  | .struct fs, v, w => ∃ l l', v = .struct l ∧ w = .struct l' ∧ BackF fs l l'

def BackF : Fields → List V → List V → Prop
  | .nil, l, l' => l = [] ∧ l' = []
  | .cons _ o t fs, l, l' => ∃ v r w r', l = v :: r ∧ l' = w :: r' ∧
      ((o = true ∧ Empty v ∧ w = zero t) ∨ (¬ (o = true ∧ Empty v) ∧ Back t v w)) ∧ BackF fs r r'
end

/-! ## Documents -/

/-- What a document says. -/
inductive J
  | null
  | bool (b : Bool)
  | num (lit : Bytes)
  | str (s : Bytes)
  | arr (l : List J)
  | obj (l : List (Bytes × J))

mutual
def J.depth : J → Nat
  | .null => 0
  | .bool _ => 0
  | .num _ => 0
  | .str _ => 0
  | .arr l => depthL l + 1
  | .obj l => depthM l + 1
termination_by structural j => j

def depthL : List J → Nat
  | [] => 0
  | j :: l => max j.depth (depthL l)
termination_by structural l => l

def depthM : List (Bytes × J) → Nat
  | [] => 0
  | (_, j) :: l => max j.depth (depthM l)
termination_by structural l => l
end

def Digits (d : Bytes) : Prop := d ≠ [] ∧ ∀ b ∈ d, 48 ≤ b.toNat ∧ b.toNat ≤ 57

/-- The numbers of JSON: a sign, digits, a fraction and an exponent. -/
def NumDoc (lit : Bytes) : Prop :=
  ∃ s ds fr ex n, lit = s ++ (ds ++ (fr ++ ex)) ∧ (s = [] ∨ s = [45]) ∧ NatDoc ds n ∧ (fr = [] ∨ ∃ d, fr = 46 :: d ∧ Digits d) ∧
    (ex = [] ∨ ∃ e sg d, (e = 101 ∨ e = 69) ∧ (sg = [] ∨ sg = [43] ∨ sg = [45]) ∧ ex = e :: (sg ++ d) ∧ Digits d)

mutual
/-- `JDoc j d`: the document `d` says `j` (RFC 8259). -/
inductive JDoc : J → Bytes → Prop
  | null : JDoc .null [110, 117, 108, 108]
  | true : JDoc (.bool true) [116, 114, 117, 101]
  | false : JDoc (.bool false) [102, 97, 108, 115, 101]
  | num (lit : Bytes) : NumDoc lit → JDoc (.num lit) lit
  | str (q s : Bytes) : StrDoc q s → JDoc (.str s) (34 :: (q ++ [34]))
  | arr (l : List J) (r : Bytes) : JItems l r → JDoc (.arr l) (91 :: (r ++ [93]))
  | obj (l : List (Bytes × J)) (r : Bytes) : JMembers l r → JDoc (.obj l) (123 :: (r ++ [125]))

inductive JItems : List J → Bytes → Prop
  | none (w : Bytes) : Space w → JItems [] w
  | one (w w' d : Bytes) (x : J) : Space w → Space w' → JDoc x d → JItems [x] (w ++ (d ++ w'))
  | more (w w' d r : Bytes) (x y : J) (l : List J) : Space w → Space w' → JDoc x d → JItems (y :: l) r →
      JItems (x :: y :: l) (w ++ (d ++ (w' ++ 44 :: r)))

inductive JMembers : List (Bytes × J) → Bytes → Prop
  | none (w : Bytes) : Space w → JMembers [] w
  | one (w w1 w2 w' q k d : Bytes) (x : J) : Space w → Space w1 → Space w2 → Space w' → StrDoc q k → JDoc x d →
      JMembers [(k, x)] (w ++ (34 :: (q ++ 34 :: (w1 ++ 58 :: (w2 ++ (d ++ w'))))))
  | more (w w1 w2 w' q k d r : Bytes) (x : J) (y : Bytes × J) (l : List (Bytes × J)) : Space w → Space w1 → Space w2 → Space w' → StrDoc q k → JDoc x d →
      JMembers (y :: l) r → JMembers ((k, x) :: y :: l) (w ++ (34 :: (q ++ 34 :: (w1 ++ 58 :: (w2 ++ (d ++ (w' ++ 44 :: r)))))))
end

/-- The document with white space around it. -/
def Document (j : J) (bs : Bytes) : Prop := ∃ w d w', bs = w ++ (d ++ w') ∧ Space w ∧ Space w' ∧ JDoc j d

/-! ## Other versions of a type -/

/-- `View t u v w`: the value `v` of type `t`, written, looks like `w` to a program that takes it for type `u`. -/
inductive View (fold : Bytes → Bytes) : T → T → V → V → Prop
  /-- nil leaves the zero value -/
  | null (t u : T) (v : V) : Null v → View fold t u v (zero u)
  | fromPtr (t u : T) (v w : V) : ¬ Null v → View fold t u v w → View fold (.ptr t) u (.ptr v) w
  | toPtr (t u : T) (v w : V) : ¬ Null v → View fold t u v w → View fold t (.ptr u) v (.ptr w)
  | bool (b : Bool) : View fold .bool .bool (.bool b) (.bool b)
  /-- integers of other sizes, if the number fits -/
  | int (s s' : Bool) (n n' : Nat) (i : Int) : InRange s' n' i → View fold (.int s n) (.int s' n') (.int i) (.int i)
  | str (s s' : Bytes) : Fixed s s' → View fold .str .str (.str s) (.str s')
  | list (t u : T) (l b l' : List V) : l.length = l'.length → (∀ (i : Nat) (v w : V), l[i]? = some v → l'[i]? = some w → View fold t u v w) →
      View fold (.list t) (.list u) (.list l b) (.list l' [])
  | map (t u : T) (l m : List (Bytes × V)) : l.length = m.length → (∀ (i : Nat) (e f : Bytes × V), l[i]? = some e → m[i]? = some f → Fixed e.1 f.1) →
      (∀ (i : Nat) (e f : Bytes × V), l[i]? = some e → m[i]? = some f → View fold t u e.2 f.2) → View fold (.map t) (.map u) (.map l) (.map (filled m))
  /-- Fields are matched by name: `src k` is the place of the old field for the new field at place `k`. A field without counterpart is zero, and so is one that was left
  out; fields that are not known any more are ignored, unless their name differs from a known one only in case. -/
  | struct (fs gs : Fields) (l l' : List V) (src : Nat → Option Nat) : l'.length = gs.toList.length →
      (∀ f ∈ fs.toList, (∃ g ∈ gs.toList, g.name = f.name) ∨ ∀ g ∈ gs.toList, fold g.name ≠ fold f.name) →
      (∀ (k : Nat) (g : Field), gs.toList[k]? = some g → src k = none → (∀ f ∈ fs.toList, f.name ≠ g.name) ∧ l'[k]? = some (zero g.t)) →
      (∀ (k i : Nat) (g : Field), gs.toList[k]? = some g → src k = some i → ∃ f v, fs.toList[i]? = some f ∧ f.name = g.name ∧ l[i]? = some v) →
      (∀ (k i : Nat) (f g : Field) (v : V), gs.toList[k]? = some g → src k = some i → fs.toList[i]? = some f → l[i]? = some v →
        f.brief = true → Empty v → l'[k]? = some (zero g.t)) →
      (∀ (k i : Nat) (f g : Field) (v w : V), gs.toList[k]? = some g → src k = some i → fs.toList[i]? = some f → l[i]? = some v → l'[k]? = some w →
        ¬ (f.brief = true ∧ Empty v) → View fold f.t g.t v w) →
      View fold (.struct fs) (.struct gs) (.struct l) (.struct l')

/-- The key `k` of a member is that of the field at place `i`: its name; or, if it is no field's name, it differs in case only from its name and no one before it. -/
def Names (fold : Bytes → Bytes) (fs : List Field) (k : Bytes) (i : Nat) : Prop :=
  ∃ f, fs[i]? = some f ∧ (f.name = k ∨ ((∀ g ∈ fs, g.name ≠ k) ∧ fold f.name = fold k ∧ ∀ (j : Nat) (g : Field), j < i → fs[j]? = some g → fold g.name ≠ fold k))

/-- Values in documents that say all about the value of a type, so that nothing of a value before is left: booleans, numbers and strings, also behind pointers, and null
for pointers, slices and maps. -/
inductive Whole : T → J → Prop
  | bool (b : Bool) : Whole .bool (.bool b)
  | str (s : Bytes) : Whole .str (.str s)
  | num (signed : Bool) (bits : Nat) (lit : Bytes) : Whole (.int signed bits) (.num lit)
  | noPtr (t : T) : Whole (.ptr t) .null
  | noList (t : T) : Whole (.list t) .null
  | noMap (t : T) : Whole (.map t) .null
  | ptr (t : T) (j : J) : j ≠ .null → Whole t j → Whole (.ptr t) j

/-- The types for which null says nothing. -/
def Solid (t : T) : Prop := t = .bool ∨ t = .str ∨ (∃ s n, t = .int s n) ∨ ∃ fs, t = .struct fs

/-- The integer `i` as it is written for a signed or an unsigned type. -/
def IntDoc (signed : Bool) (lit : Bytes) (i : Int) : Prop :=
  ∃ ds n, NatDoc ds n ∧ ((lit = ds ∧ i = (n : Int)) ∨ (signed = true ∧ lit = 45 :: ds ∧ i = -(n : Int)))

/-- `Fits t j`: what is said can be stored in values of type `t`. -/
inductive Fits (fold : Bytes → Bytes) : T → J → Prop
  | null (t : T) : Fits fold t .null
  | ptr (t : T) (j : J) : Fits fold t j → Fits fold (.ptr t) j
  | bool (b : Bool) : Fits fold .bool (.bool b)
  | int (s : Bool) (n : Nat) (lit : Bytes) (i : Int) : IntDoc s lit i → InRange s n i → Fits fold (.int s n) (.num lit)
  | str (s : Bytes) : Fits fold .str (.str s)
  | list (t : T) (l : List J) : (∀ j ∈ l, Fits fold t j) → Fits fold (.list t) (.arr l)
  | map (t : T) (l : List (Bytes × J)) : (∀ e ∈ l, Fits fold t e.2) → Fits fold (.map t) (.obj l)
  /-- members that are no field's do not matter -/
  | struct (fs : Fields) (l : List (Bytes × J)) : (∀ e ∈ l, ∀ (i : Nat) (f : Field), Names fold fs.toList e.1 i → fs.toList[i]? = some f → Fits fold f.t e.2) →
      Fits fold (.struct fs) (.obj l)

end Gofer.Spec.JsonStruct
