/-!
# Keys of interface types in the containers: values that cannot be hashed, NaN, nil

`Map`, `MapL` and `LinkedHashMap` take any key type, `LimitMap` any comparable one (interface types are), `LruCache` has keys of type `any`. The other models have keys with an
equality; here a key is what an `any` may hold: a value that equals itself, NaN, a slice (which is no map key: Go's map functions panic before they change anything), or nil. Lists of
`container/list` are lists of elements, each with its identity. Values are of a type that is not an interface. Iterators, `Range` apart, are left out.
-/
namespace Gofer.OddKeys

/-- Keys. `num` and `text` stand for all values equal to themselves; a slice is a reference. -/
inductive Key where
  | num (n : Int)
  | text (s : List UInt8)
  | nan
  | slice (ref : Nat)
  | nil
deriving DecidableEq

/-- Go's `==` as the map functions use it: NaN is equal to nothing. -/
def Key.eq : Key → Key → Bool
  | .nan, _ => false
  | _, .nan => false
  | a, b => decide (a = b)

/-- The map functions panic on other keys (runtime: hash of unhashable type). -/
def Key.hashable : Key → Bool
  | .slice _ => false
  | _ => true

/-- Go's `map` and `sync.Map`. -/
abbrev GMap (A : Type) := List (Key × A)

namespace GMap
variable {A : Type}

/-- `m[k]`, `m.Load(k)`. -/
def load (m : GMap A) (k : Key) : Option A := (m.find? fun p => p.1.eq k).map Prod.snd

/-- `delete(m, k)`, `m.Delete(k)`. -/
def delete (m : GMap A) (k : Key) : GMap A := m.filter fun p => !p.1.eq k

/-- `m[k] = a`, `m.Store(k, a)`. -/
def store (m : GMap A) (k : Key) (a : A) : GMap A := (k, a) :: delete m k

end GMap

/-- What a call returns; `panic` is a panic the caller recovers from. -/
inductive Res (V : Type) where
  | panic
  | unit
  | val (v : Option V)
  | entry (e : Option (Key × V))
  | num (n : Int)
  | ok (b : Bool)
deriving DecidableEq

/-! ### Map and MapL -/

/-- Calls. -/
inductive MOp (V : Type) where
  | put (k : Key) (v : V)
  | get (k : Key)
  | has (k : Key)
  | del (k : Key)
  | len

/-- `MapL` (hashmap/map.go:17-20); `Map` (hashmap/map.go:78-80) is the same without the counter. -/
structure ML (V : Type) where
  m : GMap V
  len : Int

/-- One call (hashmap/map.go:28-57, 74-76; of `Map`: 87-112). -/
def ML.step {V : Type} (t : ML V) : MOp V → ML V × Res V
  | .put k v =>
    if !k.hashable then (t, .panic)
    else
      match GMap.load t.m k with
      | none => (⟨GMap.store t.m k v, t.len + 1⟩, .val none)
      | some old => (⟨GMap.store t.m k v, t.len⟩, .val (some old))
  | .get k => if !k.hashable then (t, .panic) else (t, .val (GMap.load t.m k))
  | .has k => if !k.hashable then (t, .panic) else (t, .ok (GMap.load t.m k).isSome)
  | .del k =>
    if !k.hashable then (t, .panic)
    else
      match GMap.load t.m k with
      | none => (t, .ok false)
      | some _ => (⟨GMap.delete t.m k, t.len - 1⟩, .ok true)
  | .len => (t, .num t.len)

/-- `Range` (hashmap/map.go:62-71, 117-126) over the entries in the order in which `sync.Map.Range` takes them: the calls of `f`, and whether it panics: `k.(K)` on the nil interface
does, as `K` is an interface type. -/
def rangeCalls {V : Type} (f : List (Key × V) → Key → V → Bool) : GMap V → List (Key × V) → List (Key × V) × Bool
  | [], seen => (seen, false)
  | (k, v) :: rest, seen =>
    if k = .nil then (seen, true)
    else if f seen k v then rangeCalls f rest (seen ++ [(k, v)]) else (seen ++ [(k, v)], false)

/-! ### Elements -/

/-- An element of a `container/list`: identity, key, value. -/
structure Elem (V : Type) where
  id : Nat
  key : Key
  val : V
deriving DecidableEq

/-- The value of an element. -/
def valOf {V : Type} (l : List (Elem V)) (id : Nat) : Option V := (l.find? fun e => e.id == id).map Elem.val

/-- `list.Remove`. -/
def unlink {V : Type} (l : List (Elem V)) (id : Nat) : List (Elem V) := l.filter fun e => e.id != id

/-- `list.MoveToFront`. -/
def toFront {V : Type} (l : List (Elem V)) (id : Nat) : List (Elem V) := l.filter (fun e => e.id == id) ++ unlink l id

/-- Assignment to the value of an element. -/
def setVal {V : Type} (l : List (Elem V)) (id : Nat) (v : V) : List (Elem V) := l.map fun e => if e.id == id then { e with val := v } else e

/-! ### LimitMap -/

/-- `LimitMap` (hashmap/limitmap.go:20-25). -/
structure LM (V : Type) where
  cache : GMap Nat
  order : List (Elem V)
  next : Nat
  capacity : Int
deriving DecidableEq

/-- `NewLimitMap` (hashmap/limitmap.go:28-34). -/
def LM.new {V : Type} (capacity : Int) : LM V := ⟨[], [], 0, capacity⟩

/-- Calls. -/
inductive LOp (V : Type) where
  | put (k : Key) (v : V)
  | get (k : Key)
  | del (k : Key)
  | removeMulti (ks : List Key)
  | len

/-- The removal of the oldest entry in `Put` (hashmap/limitmap.go:56-62). -/
def LM.evict {V : Type} (t : LM V) : LM V :=
  if (t.cache.length : Int) > t.capacity then
    match t.order.getLast? with
    | none => t
    | some e => { t with order := unlink t.order e.id, cache := GMap.delete t.cache e.key }
  else t

/-- `Del` with a key that can be hashed (hashmap/limitmap.go:74-77, 86-89). -/
def LM.drop {V : Type} (t : LM V) (k : Key) : LM V :=
  match GMap.load t.cache k with
  | none => t
  | some e => { t with order := unlink t.order e, cache := GMap.delete t.cache k }

/-- The loop of `RemoveMulti` (hashmap/limitmap.go:85-90): the map, and whether it panicked. -/
def LM.dropMulti {V : Type} (t : LM V) : List Key → LM V × Bool
  | [] => (t, false)
  | k :: ks => if !k.hashable then (t, true) else LM.dropMulti (t.drop k) ks

/-- One call (hashmap/limitmap.go:37-98). The keys in the list could be hashed when they were put. -/
def LM.step {V : Type} (t : LM V) : LOp V → LM V × Res V
  | .put k v =>
    if !k.hashable then (t, .panic)
    else
      match GMap.load t.cache k with
      | some e => ({ t with order := toFront (setVal t.order e v) e }, .val (valOf t.order e))
      | none =>
        let t := t.evict
        ({ t with order := ⟨t.next, k, v⟩ :: t.order, cache := GMap.store t.cache k t.next, next := t.next + 1 }, .val none)
  | .get k => if !k.hashable then (t, .panic) else (t, .val ((GMap.load t.cache k).bind (valOf t.order)))
  | .del k => if !k.hashable then (t, .panic) else (t.drop k, .unit)
  | .removeMulti ks => ((t.dropMulti ks).1, if (t.dropMulti ks).2 then .panic else .unit)
  | .len => (t, .num t.cache.length)

/-- The map after a history. -/
def LM.run {V : Type} (t : LM V) (os : List (LOp V)) : LM V := os.foldl (fun t o => (t.step o).1) t

/-! ### LinkedHashMap -/

/-- `LinkedHashMap` (hashmap/linkedhashmap.go:15-21). -/
structure LH (V : Type) where
  m : GMap Nat
  list : List (Elem V)
  next : Nat
  limit : Int
  count : Int
deriving DecidableEq

/-- `NewLinkedHashMap` (hashmap/linkedhashmap.go:23-30). -/
def LH.new {V : Type} (limit : Int) : LH V := ⟨[], [], 0, limit, 0⟩

/-- Calls. -/
inductive HOp (V : Type) where
  | put (k : Key) (v : V)
  | loadOrStore (k : Key) (v : V)
  | get (k : Key)
  | delete (k : Key)
  | back
  | front
  | clear
  | len
  | moveToFront (k : Key)

/-- `t.list.PushFront(kv)`, before anything is done with the key (hashmap/linkedhashmap.go:41, 60). -/
def LH.push {V : Type} (t : LH V) (k : Key) (v : V) : LH V := { t with list := ⟨t.next, k, v⟩ :: t.list, next := t.next + 1 }

/-- The branch for a new key (hashmap/linkedhashmap.go:43-50, 62-69), after `Swap` and `count++`: the map, and whether it panicked. -/
def LH.trim {V : Type} (t : LH V) : LH V × Bool :=
  if t.count > t.limit then
    match t.list.getLast? with
    | none => ({ t with count := t.count - 1 }, false)
    | some e =>
      let t := { t with list := unlink t.list e.id }
      if !e.key.hashable then (t, true) else ({ t with m := GMap.delete t.m e.key, count := t.count - 1 }, false)
  else (t, false)

/-- `Put` and `LoadOrStore` (hashmap/linkedhashmap.go:37-78): the map, whether it panicked, the value there was. -/
def LH.putCore {V : Type} (t : LH V) (k : Key) (v : V) : LH V × Bool × Option V :=
  let e := t.next
  let t := t.push k v
  if !k.hashable then (t, true, none)
  else
    match GMap.load t.m k with
    | none =>
      let t := { t with m := GMap.store t.m k e, count := t.count + 1 }
      (t.trim.1, t.trim.2, none)
    | some pre => ({ t with m := GMap.store t.m k e, list := unlink t.list pre }, false, valOf t.list pre)

/-- One call (hashmap/linkedhashmap.go:37-148). -/
def LH.step {V : Type} (t : LH V) : HOp V → LH V × Res V
  | .put k v => ((t.putCore k v).1, if (t.putCore k v).2.1 then .panic else .unit)
  | .loadOrStore k v => ((t.putCore k v).1, if (t.putCore k v).2.1 then .panic else .val (t.putCore k v).2.2)
  | .get k => if !k.hashable then (t, .panic) else (t, .val ((GMap.load t.m k).bind (valOf t.list)))
  | .delete k =>
    if !k.hashable then (t, .panic)
    else
      match GMap.load t.m k with
      | none => (t, .unit)
      | some e => ({ t with list := unlink t.list e, m := GMap.delete t.m k, count := t.count - 1 }, .unit)
  | .back => (t, .entry (t.list.getLast?.map fun e => (e.key, e.val)))
  | .front => (t, .entry (t.list.head?.map fun e => (e.key, e.val)))
  | .clear => ({ t with m := [], list := [], count := 0 }, .unit)
  | .len => (t, .num t.count)
  | .moveToFront k =>
    if !k.hashable then (t, .panic)
    else
      match GMap.load t.m k with
      | none => (t, .unit)
      | some e => ({ t with list := toFront t.list e }, .unit)

/-- The map after a history. -/
def LH.run {V : Type} (t : LH V) (os : List (HOp V)) : LH V := os.foldl (fun t o => (t.step o).1) t

/-! ### LruCache -/

/-- `LruCache` (cache/lrucache.go:16-19) with the library's `lru.Cache`. -/
structure LC (V : Type) where
  maxEntries : Int
  ll : List (Elem V)
  cache : GMap Nat
  next : Nat
deriving DecidableEq

/-- `NewLruCache` (cache/lrucache.go:21-23). -/
def LC.new {V : Type} (maxEntries : Int) : LC V := ⟨maxEntries, [], [], 0⟩

/-- Calls. -/
inductive COp (V : Type) where
  | add (k : Key) (v : V)
  | get (k : Key)
  | remove (k : Key)
  | removeMulti (ks : List (List UInt8))

/-- `lru.Cache.RemoveOldest` (library). The keys in the list could be hashed when they were added. -/
def LC.removeOldest {V : Type} (c : LC V) : LC V :=
  match c.ll.getLast? with
  | none => c
  | some e => { c with ll := unlink c.ll e.id, cache := GMap.delete c.cache e.key }

/-- `lru.Cache.Remove` (library) with a key that can be hashed. -/
def LC.drop {V : Type} (c : LC V) (k : Key) : LC V :=
  match GMap.load c.cache k with
  | none => c
  | some e => { c with ll := unlink c.ll e, cache := GMap.delete c.cache k }

/-- One call (cache/lrucache.go:26-63). -/
def LC.step {V : Type} (c : LC V) : COp V → LC V × Res V
  | .add k v =>
    if k = .nil then (c, .unit)
    else if !k.hashable then (c, .panic)
    else
      match GMap.load c.cache k with
      | some e => ({ c with ll := setVal (toFront c.ll e) e v }, .unit)
      | none =>
        let c := { c with ll := ⟨c.next, k, v⟩ :: c.ll, cache := GMap.store c.cache k c.next, next := c.next + 1 }
        (if c.maxEntries ≠ 0 ∧ (c.ll.length : Int) > c.maxEntries then c.removeOldest else c, .unit)
  | .get k =>
    if !k.hashable then (c, .panic)
    else
      match GMap.load c.cache k with
      | none => (c, .val none)
      | some e => ({ c with ll := toFront c.ll e }, .val (valOf c.ll e))
  | .remove k => if !k.hashable then (c, .panic) else (c.drop k, .unit)
  | .removeMulti ks => (ks.foldl (fun c s => c.drop (.text s)) c, .unit)

/-- The cache after a history. -/
def LC.run {V : Type} (c : LC V) (os : List (COp V)) : LC V := os.foldl (fun c o => (c.step o).1) c

end Gofer.OddKeys
