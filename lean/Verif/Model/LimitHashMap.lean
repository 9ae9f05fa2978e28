import Verif.Model.AMap
import Verif.Model.GoList
import Verif.Spec.LimitHashMap

/-!
# Model of `hashmap/limithashmap.go`

Each method but `Clear` and `Len` touches one segment under its lock; a history of calls is a sequence.
`Clear` and `Len` visit the segments one after the other; here they are single steps.
The `key` field of `entry` is written and never read, and is left out.
-/
namespace Gofer.LimitHashMap
open Gofer.Spec.LimitHashMap (Op Res)

/-- `segment` (hashmap/limithashmap.go:19-23); an `entry` (34-38) is (hashedKey, value), the value being
an `any` (`none` = nil). -/
structure Seg (V : Type) where
  cache : AMap UInt64 Nat
  order : GoList (UInt64 × Option V)

/-- A new segment (hashmap/limithashmap.go:63-66). -/
def Seg.new {V : Type} : Seg V := ⟨AMap.empty, GoList.new⟩

/-- `LimitHashMap` (hashmap/limithashmap.go:26-31). -/
structure LHM (K V : Type) where
  capacity : Int
  segments : Nat → Seg V
  hashFunc : K → UInt64
  segmentNumber : Nat

variable {K V : Type} [DecidableEq K] [GoValue V]

omit [DecidableEq K] [GoValue V] in
/-- `NewLimitHashMapWithSegment` (hashmap/limithashmap.go:60-139) for a positive segment number (0 and
negative numbers panic). Go's `/` on ints truncates. -/
def new (hashFunc : K → UInt64) (capacity : Int) (segmentNumber : Nat) : LHM K V :=
  ⟨capacity.tdiv segmentNumber, fun _ => Seg.new, hashFunc, segmentNumber⟩

/-- Index in `getSegment` (hashmap/limithashmap.go:141-144). -/
def segIdx (c : LHM K V) (k : K) : Nat := (c.hashFunc k).toNat % c.segmentNumber

/-- Replace a segment. -/
def setSeg (c : LHM K V) (i : Nat) (s : Seg V) : LHM K V :=
  { c with segments := fun j => if j = i then s else c.segments j }

/-- `Get` inside the segment (hashmap/limithashmap.go:151-157); `none` is `(zero, false)`. -/
def Seg.get (s : Seg V) (h : UInt64) : Option V :=
  match s.cache.load h with
  | some ele =>
    match s.order.val ele with
    | some e => e.2
    | none => none
  | none => none

/-- `Put` inside the segment (hashmap/limithashmap.go:165-182); `none` is the panic of asserting a nil
value to `V`, which leaves the segment as it was. -/
def Seg.put (cap : Int) (s : Seg V) (h : UInt64) (value : Option V) : Option (Seg V × Option V) :=
  match s.cache.load h with
  | some ele =>
    match s.order.val ele with
    | some e =>
      match e.2 with
      | some prev => some ({ s with order := s.order.setVal ele (e.1, value) }, some prev)
      | none => none
    | none => none
  | none =>
    let s :=
      if (s.order.len : Int) ≥ cap then
        let oldest := s.order.back
        if oldest ≠ 0 then
          let order := s.order.remove oldest
          match order.val oldest with
          | some e => { s with order := order, cache := s.cache.delete e.1 }
          | none => { s with order := order }
        else s
      else s
    let (order, ele) := s.order.pushFront (h, value)
    some ({ s with order := order, cache := s.cache.store h ele }, none)

/-- `Del` inside the segment (hashmap/limithashmap.go:190-194). -/
def Seg.del (s : Seg V) (h : UInt64) : Seg V :=
  match s.cache.load h with
  | some ele => { s with order := s.order.remove ele, cache := s.cache.delete h }
  | none => s

/-- `Clear` of one segment (hashmap/limithashmap.go:210-211). -/
def Seg.clear (s : Seg V) : Seg V := { s with cache := AMap.empty, order := s.order.init }

/-- Go results of a (value, ok) call. -/
def resVal : Option V → Res V
  | some v => .val v true
  | none => .val GoValue.zero false

/-- `Put` (hashmap/limithashmap.go:160-183). -/
def put (c : LHM K V) (k : K) (v : V) : LHM K V × Res V :=
  match (c.segments (segIdx c k)).put c.capacity (c.hashFunc k) (toAny v) with
  | some (s, prev) => (setSeg c (segIdx c k) s, resVal prev)
  | none => (c, .panic)

/-- `Get` (hashmap/limithashmap.go:146-158). -/
def get (c : LHM K V) (k : K) : Option V := (c.segments (segIdx c k)).get (c.hashFunc k)

/-- `Del` (hashmap/limithashmap.go:185-195). -/
def del (c : LHM K V) (k : K) : LHM K V :=
  setSeg c (segIdx c k) ((c.segments (segIdx c k)).del (c.hashFunc k))

/-- `Contains` (hashmap/limithashmap.go:197-205). -/
def contains (c : LHM K V) (k : K) : Bool :=
  ((c.segments (segIdx c k)).cache.load (c.hashFunc k)).isSome

/-- `Clear` (hashmap/limithashmap.go:207-214). -/
def clear (c : LHM K V) : LHM K V := { c with segments := fun i => (c.segments i).clear }

/-- `Len` (hashmap/limithashmap.go:216-224). -/
def len (c : LHM K V) : Nat := ((List.range c.segmentNumber).map fun i => (c.segments i).order.len).sum

/-- One call. -/
def step (c : LHM K V) : Op K V → LHM K V × Res V
  | .put k v => put c k v
  | .get k => (c, resVal (get c k))
  | .del k => (del c k, .unit)
  | .contains k => (c, .ok (contains c k))
  | .clear => (clear c, .unit)
  | .len => (c, .num (len c))

/-- Results of a history. -/
def run : LHM K V → List (Op K V) → List (Res V)
  | _, [] => []
  | c, o :: os => (step c o).2 :: run (step c o).1 os

/-- State after a history. -/
def final (c : LHM K V) (os : List (Op K V)) : LHM K V := os.foldl (fun c o => (step c o).1) c

/-! ## Hash functions (hashmap/limithashmap.go:69-131)

Unsigned types convert by zero extension, signed types by sign extension. A float64 is its bit
pattern. -/

/-- `uint8`, `uint16`, `uint32`, `uint64`, `uint`, `uintptr` of width `w` (lines 71-82, 99-102, 115-122). -/
def hashUint (w : Nat) (k : BitVec w) : UInt64 := ⟨k.setWidth 64⟩

/-- `int8`, `int16`, `int32`, `int64`, `int` of width `w` (lines 83-98, 111-114). -/
def hashInt (w : Nat) (k : BitVec w) : UInt64 := ⟨k.signExtend 64⟩

/-- `float64` (lines 103-106): `math.Float64bits`. -/
def hashFloat64 (bits : BitVec 64) : UInt64 := ⟨bits⟩

/-- `string` (lines 123-128): FNV-1a, 64 bit (library `hash/fnv`: offset basis
14695981039346656037, prime 1099511628211, xor then multiply). -/
def hashString (s : List UInt8) : UInt64 :=
  s.foldl (fun h b => (h ^^^ b.toUInt64) * 1099511628211) 14695981039346656037

end Gofer.LimitHashMap
