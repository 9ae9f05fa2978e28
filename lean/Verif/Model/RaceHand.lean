import Verif.Model.Race
/-!
# Records handed from one goroutine to another

Programs that make a record, write it, and hand a pointer to it to the package; and that read the records whose pointers they are given. Records, keys, channels and mutexes
are numbered. A value is the pointers it consists of. The place of an element in a channel is a location of its own: sending writes it, receiving takes it out, so that a receive
is ordered after its own send only.
-/
namespace Gofer.Race.Hand
open Gofer.Race

/-- An entry of a `sync.Map`; the place `i` of channel `c`; all that a mutex of a container protects; a record of the user. -/
inductive Loc | slot (k : Nat) | buf (c i : Nat) | state (m : Nat) | record (r : Nat) deriving DecidableEq

/-- Nothing; a channel; pointers to records. -/
inductive Val | nothing | chan (c : Nat) | recs (l : List Nat) deriving DecidableEq

abbrev A := Act Nat Loc Val

/-- New objects: the maps are empty, nothing is in the channels. -/
def mem0 : Loc → Val := fun _ => .nothing

/-- Records are written once, by the goroutine that makes them. -/
def isRec : Loc → Prop
  | .record _ => True
  | _ => False

/-- The record is made and written. -/
def make (r : Nat) : List A := [.wr (.record r) .nothing]

/-- The records `rs` are read. -/
def look (rs : List Nat) : List A := rs.map fun r => .rd (.record r) .nothing

/-! ## Await -/

/-- `Get` (lock/await.go:30-39): the channel is there, or a new one is made. -/
def getChan (m k c : Nat) (found : Bool) : List A :=
  if found then [.lock m, .aload (.slot k) (.chan c), .unlock m]
  else [.lock m, .aload (.slot k) .nothing, .armw (.slot k) .nothing (.chan c), .unlock m]

/-- Calls of an `Await`; `ix` is the mutex of an id. -/
inductive AwaitCall (ix : Nat → Nat) : List A → Prop where
  /-- Wait, WaitWithCancel, SyncWait that receive (lock/await.go:87-169), and the look at the records. -/
  | wait (k c i : Nat) (found : Bool) (rs : List Nat) (v : Val) :
      AwaitCall ix (getChan (ix k) k c found ++ [.armw (.buf c i) (.recs rs) .nothing, .armw (.slot k) v .nothing] ++ look rs)
  /-- Wait that is given nothing: the time is over, the context cancelled, the channel closed (lock/await.go:87-169). -/
  | waitNothing (k c : Nat) (found : Bool) (v : Val) : AwaitCall ix (getChan (ix k) k c found ++ [.armw (.slot k) v .nothing])
  /-- CloseAndPut of a record (lock/await.go:68-86): `tries` times there is no channel. -/
  | put (k c i r tries : Nat) (v w : Val) (hw : w ≠ .nothing) :
      AwaitCall ix (make r ++ List.replicate tries (.aload (.slot k) .nothing) ++
        [.aload (.slot k) w, .lock (ix k), .aload (.slot k) (.chan c), .armw (.slot k) v .nothing, .armw (.buf c i) .nothing (.recs [r]), .unlock (ix k)])
  /-- CloseAndPut and Close that find no channel, or a closed one (lock/await.go:47-86). -/
  | putNothing (k r tries : Nat) (v : Val) :
      AwaitCall ix (make r ++ List.replicate tries (.aload (.slot k) .nothing) ++ [.lock (ix k), .aload (.slot k) v, .armw (.slot k) v .nothing, .unlock (ix k)])
  /-- Has (lock/await.go:42-44). -/
  | has (k : Nat) (v : Val) : AwaitCall ix [.aload (.slot k) v]

/-! ## FastAwait -/

/-- Calls of a `FastAwait`; the Bloom filter is left out (C227). -/
inductive FastCall : List A → Prop where
  /-- Wait, WaitWithCancel that receive (lock/fastawait.go:41-93), and the look at the records. -/
  | wait (k c i : Nat) (rs : List Nat) (u v : Val) :
      FastCall ([.armw (.slot k) u (.chan c), .armw (.buf c i) (.recs rs) .nothing, .armw (.slot k) v .nothing] ++ look rs)
  /-- Wait that is given nothing (lock/fastawait.go:41-93). -/
  | waitNothing (k c : Nat) (u v : Val) : FastCall [.armw (.slot k) u (.chan c), .armw (.slot k) v .nothing]
  /-- CloseAndPut of a record (lock/fastawait.go:95-109). -/
  | put (k c i r tries : Nat) (v : Val) :
      FastCall (make r ++ List.replicate tries (.aload (.slot k) .nothing) ++
        [.aload (.slot k) (.chan c), .armw (.slot k) v .nothing, .armw (.buf c i) .nothing (.recs [r])])
  /-- CloseAndPut and Close that give up, or find a closed channel (lock/fastawait.go:95-124). -/
  | putNothing (k r tries : Nat) (u v : Val) :
      FastCall (make r ++ List.replicate tries (.aload (.slot k) .nothing) ++ [.aload (.slot k) u, .armw (.slot k) v .nothing])

/-! ## Map and MapL -/

/-- Calls of a `Map` or `MapL`; the counter of `MapL` is left out (C167). -/
inductive MapCall : List A → Prop where
  /-- Put (hashmap/map.go:28-35, 87-92), and the look at the previous value. -/
  | put (k r : Nat) (old : List Nat) : MapCall (make r ++ [.armw (.slot k) (.recs old) (.recs [r])] ++ look old)
  /-- Put of a new key (hashmap/map.go:28-35, 87-92). -/
  | putNew (k r : Nat) : MapCall (make r ++ [.armw (.slot k) .nothing (.recs [r])])
  /-- Get, Range (hashmap/map.go:37-45, 62-71, 94-102, 117-126). -/
  | get (ks : List (Nat × List Nat)) : MapCall (ks.flatMap fun p => .aload (.slot p.1) (.recs p.2) :: look p.2)
  /-- Get, Has of a key that is not there (hashmap/map.go:37-50, 94-107). -/
  | getNone (k : Nat) : MapCall [.aload (.slot k) .nothing]
  /-- Del (hashmap/map.go:52-57, 109-112). -/
  | del (k : Nat) (v : Val) : MapCall [.armw (.slot k) v .nothing]

/-! ## Containers with a mutex -/

/-- The records in a container. -/
def Val.list : Val → List Nat
  | .recs l => l
  | _ => []

/-- Calls of a `LimitMap`, `LruCache`, `TreeMap` or `LimitHashMap`. `m` is the mutex (of the segment of the key); all it protects (C165) is one location with the records that
are in it. -/
inductive BoxCall : List A → Prop where
  /-- Put, Add (hashmap/limitmap.go:47-67, cache/lrucache.go:56-63, hashmap/treemap.go:37-44, hashmap/limithashmap.go:160-183): afterwards the container holds some of
  the records it had and the new one; the look at the previous value. -/
  | put (m r : Nat) (v : Val) (new old : List Nat) (h : ∀ x ∈ new, x = r ∨ x ∈ v.list) (ho : ∀ x ∈ old, x ∈ v.list) :
      BoxCall (make r ++ [.lock m, .rd (.state m) v, .wr (.state m) (.recs new), .unlock m] ++ look old)
  /-- Get, Contains, Len, Ascend, Descend under `RLock` (hashmap/limitmap.go:37-44, 94-98, hashmap/treemap.go:47-56, 66-83, hashmap/limithashmap.go:146-158, 197-205). The callbacks
  look at the records while the mutex is held. -/
  | get (m : Nat) (v : Val) (inside outside : List Nat) (hi : ∀ x ∈ inside, x ∈ v.list) (ho : ∀ x ∈ outside, x ∈ v.list) :
      BoxCall ([.rlock m, .rd (.state m) v] ++ look inside ++ [.runlock m] ++ look outside)
  /-- Get of `LruCache`, Del, Remove, RemoveMulti, Clear, Len under `Lock` (cache/lrucache.go:26-53, hashmap/limitmap.go:70-91, hashmap/treemap.go:59-63,
  hashmap/limithashmap.go:185-195, 207-224): records may leave. -/
  | change (m : Nat) (v : Val) (new old : List Nat) (h : ∀ x ∈ new, x ∈ v.list) (ho : ∀ x ∈ old, x ∈ v.list) :
      BoxCall ([.lock m, .rd (.state m) v, .wr (.state m) (.recs new), .unlock m] ++ look old)

/-! ## GoPool -/

/-- What goroutines do for a `GoPool`. The records of a function are what it uses. Channel 0 is `funcnPool`, channel `n + 2` the channel `task` of worker `n`, channel 1 is
for functions that get a goroutine of their own: the start of a goroutine is ordered before what it does. The other fields are left out (C170). -/
inductive PoolCall : List A → Prop where
  /-- Go (pool/gopool/gopool.go:85-91): the function is sent. -/
  | go (r i : Nat) : PoolCall (make r ++ [.armw (.buf 0 i) .nothing (.recs [r])])
  /-- Go when the pool is closed (pool/gopool/gopool.go:92-94). -/
  | goClosed (r i : Nat) : PoolCall (make r ++ [.armw (.buf 1 i) .nothing (.recs [r])])
  /-- The dispatcher passes a function to a worker (pool/gopool/gopool.go:24-29, 130-147). -/
  | pass (i n j : Nat) (rs : List Nat) : PoolCall [.lock 0, .armw (.buf 0 i) (.recs rs) .nothing, .armw (.buf (n + 2) j) .nothing (.recs rs), .unlock 0]
  /-- The dispatcher of a closed pool starts a goroutine (pool/gopool/gopool.go:131-133). -/
  | start (i j : Nat) (rs : List Nat) : PoolCall [.lock 0, .armw (.buf 0 i) (.recs rs) .nothing, .armw (.buf 1 j) .nothing (.recs rs), .unlock 0]
  /-- A worker, or the new goroutine, runs the function (pool/gopool/gopool.go:40-43). -/
  | run (c j : Nat) (hc : c ≠ 0) (rs : List Nat) : PoolCall (.armw (.buf c j) (.recs rs) .nothing :: look rs)

end Gofer.Race.Hand
