import Verif.Model.AMap
import Verif.Model.GoList
import Verif.Spec.Recency

/-!
# Model of `hashmap/linkedhashmap.go`

`t.m` maps keys to element addresses, `t.list` is the pointer-level list of (key, value) entries. All
methods but `Get` run under `t.mu`, so a history of calls is a sequence; `Get` reads `t.m` and an entry
that is never mutated. `int64` counters are `Int` (no overflow below 2^63 entries). Pointers stored in
`t.m` are never nil, so the `!= nil` tests of lines 51, 70, 72, 82, 83 always hold.
-/
namespace Gofer.LinkedHashMap
open Gofer.Spec.Recency (Op Res)

/-- `LinkedHashMap` (hashmap/linkedhashmap.go:15-21). -/
structure LHM (K V : Type) where
  m : AMap K Nat
  list : GoList (K × V)
  limit : Int
  count : Int

variable {K V : Type} [DecidableEq K]

/-- `NewLinkedHashMap` (hashmap/linkedhashmap.go:23-30). -/
def new (limit : Int) : LHM K V := ⟨AMap.empty, GoList.new, limit, 0⟩

/-- The body shared by `Put` and `LoadOrStore` (hashmap/linkedhashmap.go:37-54 and 56-71): push the new
entry to the front, swap it into the map; for a new key count it and, over the limit, remove the back
entry; for an existing key remove the old element. Returns the previous element (0 if none). -/
def putCore (t : LHM K V) (k : K) (v : V) : LHM K V × Nat :=
  let (list, elem) := t.list.pushFront (k, v)
  match t.m.swap k elem with
  | (none, m) =>
    let count := t.count + 1
    if count > t.limit then
      let oldest := list.back
      if oldest ≠ 0 then
        let list := list.remove oldest
        match list.val oldest with
        | some e => ({ t with m := (m.loadAndDelete e.1).2, list := list, count := count - 1 }, 0)
        | none => ({ t with m := m, list := list, count := count - 1 }, 0)
      else ({ t with m := m, list := list, count := count - 1 }, 0)
    else ({ t with m := m, list := list, count := count }, 0)
  | (some pre, m) => ({ t with m := m, list := list.remove pre }, pre)

/-- `Put` (hashmap/linkedhashmap.go:37-54). -/
def put (t : LHM K V) (k : K) (v : V) : LHM K V := (putCore t k v).1

/-- `LoadOrStore` (hashmap/linkedhashmap.go:56-78): `none` is `(zero, false)`. -/
def loadOrStore (t : LHM K V) (k : K) (v : V) : LHM K V × Option V :=
  let (t', pre) := putCore t k v
  if pre = 0 then (t', none) else (t', (t'.list.val pre).map Prod.snd)

/-- `Get` (hashmap/linkedhashmap.go:80-90). -/
def get (t : LHM K V) (k : K) : Option V :=
  match t.m.load k with
  | some e => (t.list.val e).map Prod.snd
  | none => none

/-- `Delete` (hashmap/linkedhashmap.go:92-100). -/
def delete (t : LHM K V) (k : K) : LHM K V :=
  match t.m.load k with
  | some e => { t with list := t.list.remove e, m := t.m.delete k, count := t.count - 1 }
  | none => t

/-- `Back` (hashmap/linkedhashmap.go:102-112). -/
def back (t : LHM K V) : Option (K × V) :=
  if t.list.back ≠ 0 then t.list.val t.list.back else none

/-- `Front` (hashmap/linkedhashmap.go:114-125). -/
def front (t : LHM K V) : Option (K × V) :=
  if t.list.front ≠ 0 then t.list.val t.list.front else none

/-- `Clear` (hashmap/linkedhashmap.go:127-134). -/
def clear (t : LHM K V) : LHM K V := { t with m := AMap.empty, list := t.list.init, count := 0 }

/-- `Len` (hashmap/linkedhashmap.go:136-140). -/
def len (t : LHM K V) : Int := t.count

/-- `MoveToFront` (hashmap/linkedhashmap.go:142-148). -/
def moveToFront (t : LHM K V) (k : K) : LHM K V :=
  match t.m.load k with
  | some e => { t with list := t.list.moveToFront e }
  | none => t

/-- Go results of a (value, ok) call. -/
def resVal (zv : V) : Option V → Res K V
  | some v => .val v true
  | none => .val zv false

/-- Go results of a (key, value, ok) call. -/
def resEntry (zk : K) (zv : V) : Option (K × V) → Res K V
  | some p => .entry p.1 p.2 true
  | none => .entry zk zv false

/-- One call; `zk`, `zv` are the zero values of `K`, `V`. -/
def step (zk : K) (zv : V) (t : LHM K V) : Op K V → LHM K V × Res K V
  | .put k v => (put t k v, .unit)
  | .loadOrStore k v => ((loadOrStore t k v).1, resVal zv (loadOrStore t k v).2)
  | .get k => (t, resVal zv (get t k))
  | .delete k => (delete t k, .unit)
  | .back => (t, resEntry zk zv (back t))
  | .front => (t, resEntry zk zv (front t))
  | .clear => (clear t, .unit)
  | .len => (t, .num (len t))
  | .moveToFront k => (moveToFront t k, .unit)

/-- Results of a history. -/
def run (zk : K) (zv : V) : LHM K V → List (Op K V) → List (Res K V)
  | _, [] => []
  | t, o :: os => (step zk zv t o).2 :: run zk zv (step zk zv t o).1 os

/-- State after a history. -/
def final (zk : K) (zv : V) (t : LHM K V) (os : List (Op K V)) : LHM K V :=
  os.foldl (fun t o => (step zk zv t o).1) t

/-! ## Iterator -/

/-- `LinkedHashMapIterator` (hashmap/linkedhashmap.go:150-154); `current` is an element address, 0 is
nil. -/
structure Iter where
  current : Nat
  front : Bool

/-- `Iterator` (hashmap/linkedhashmap.go:174-184). -/
def iterator (t : LHM K V) (front : Bool) : Iter :=
  ⟨if front then t.list.front else t.list.back, front⟩

/-- `Next` (hashmap/linkedhashmap.go:156-172); `none` is `(zero, zero, false)`. -/
def next (t : LHM K V) (it : Iter) : Iter × Option (K × V) :=
  if it.current ≠ 0 then
    ({ it with current := if it.front then t.list.elemNext it.current else t.list.elemPrev it.current },
     t.list.val it.current)
  else (it, none)

/-- The results of `n` consecutive calls of `Next` on an unmodified map. -/
def nexts (t : LHM K V) : Nat → Iter → List (Option (K × V))
  | 0, _ => []
  | n + 1, it => (next t it).2 :: nexts t n (next t it).1

/-- `n` rounds of: call `Next`, and delete the returned key if `del` says so. -/
def nextsDeleting (del : K → V → Bool) : Nat → LHM K V → Iter → List (Option (K × V)) × LHM K V
  | 0, t, _ => ([], t)
  | n + 1, t, it =>
    match next t it with
    | (it', some (k, v)) =>
      let t' := if del k v then delete t k else t
      let (r, t'') := nextsDeleting del n t' it'
      (some (k, v) :: r, t'')
    | (it', none) =>
      let (r, t'') := nextsDeleting del n t it'
      (none :: r, t'')

end Gofer.LinkedHashMap
