import Verif.Spec.Race
/-!
# The memory accesses of the methods

For each type the locations its methods access, and for each method the order of its accesses, branches and loops included. Values are left out (`Unit`); a branch may
go either way. Fields that are set by the constructor and never written again are left out, as are accesses to values of the user.
-/
namespace Gofer.Race

/-- Accesses of a piece of code. `locked m true c` is `Lock`, `c`, `Unlock`, `locked m false c` is `RLock`, `c`, `RUnlock`; the unlocking is deferred, so it is also done
when `c` panics half-way. -/
inductive Code (M X : Type) where
  | skip
  | rd (x : X)
  | wr (x : X)
  | aload (x : X)
  | armw (x : X)
  | chan (x : X)
  | seq (a b : Code M X)
  | alt (a b : Code M X)
  | star (a : Code M X)
  | locked (m : M) (w : Bool) (c : Code M X)

variable {M X : Type}

/-- The sequences of actions of a piece of code. -/
inductive Code.Runs : Code M X → List (Act M X Unit) → Prop where
  | skip : Runs .skip []
  | rd (x : X) : Runs (.rd x) [.rd x ()]
  | wr (x : X) : Runs (.wr x) [.wr x ()]
  | aload (x : X) : Runs (.aload x) [.aload x ()]
  | armw (x : X) : Runs (.armw x) [.armw x () ()]
  | chan (x : X) : Runs (.chan x) [.chan x]
  | seq {a b : Code M X} {l l' : List (Act M X Unit)} (h : Runs a l) (h' : Runs b l') : Runs (.seq a b) (l ++ l')
  | altL {a b : Code M X} {l : List (Act M X Unit)} (h : Runs a l) : Runs (.alt a b) l
  | altR {a b : Code M X} {l : List (Act M X Unit)} (h : Runs b l) : Runs (.alt a b) l
  | starNil {a : Code M X} : Runs (.star a) []
  | starCons {a : Code M X} {l l' : List (Act M X Unit)} (h : Runs a l) (h' : Runs (.star a) l') : Runs (.star a) (l ++ l')
  | lockedW {m : M} {c : Code M X} {l p : List (Act M X Unit)} (h : Runs c l) (hp : p <+: l) :
      Runs (.locked m true c) (.lock m :: p ++ [.unlock m])
  | lockedR {m : M} {c : Code M X} {l p : List (Act M X Unit)} (h : Runs c l) (hp : p <+: l) :
      Runs (.locked m false c) (.rlock m :: p ++ [.runlock m])

/-- One after another. -/
def Code.all : List (Code M X) → Code M X
  | [] => .skip
  | c :: l => .seq c (all l)

/-- The action sequences of the methods `ops`. -/
def Calls {Op : Type} (code : Op → Code M X) (ops : Op → Prop) (l : List (Act M X Unit)) : Prop := ∃ op, ops op ∧ (code op).Runs l

/-- No data race on `x` when the methods `ops` are called by any number of goroutines. -/
def FreeOn {Op : Type} [DecidableEq M] [DecidableEq X] (code : Op → Code M X) (ops : Op → Prop) (x : X) : Prop :=
  RaceFreeOn (Calls code ops) (fun _ => ()) (fun _ => False) x

/-- Perhaps. -/
def Code.opt (c : Code M X) : Code M X := .alt c .skip

open Code

/-! ## LimitMap -/
namespace LimitMapR

/-- `cache`, the links of `order` and of its elements, and the entries (hashmap/limitmap.go:14-25). -/
inductive Loc | cache | order | entries deriving DecidableEq
inductive Op | get | put | del | removeMulti | len deriving DecidableEq

/-- The one mutex is `()`. -/
def code : Op → Code Unit Loc
  -- Get, hashmap/limitmap.go:37-44
  | .get => .locked () false (all [.rd .cache, opt (all [.rd .order, .rd .entries])])
  -- Put, hashmap/limitmap.go:47-67
  | .put => .locked () true (all [.rd .cache,
      .alt (all [.rd .order, .rd .entries, .rd .order, .wr .entries, .rd .order, .wr .order])
        (all [.rd .cache, opt (all [.rd .order, opt (all [.wr .order, .rd .order, .rd .entries, .wr .cache])]),
          .wr .entries, .rd .order, .wr .order, .wr .cache])])
  -- Del, hashmap/limitmap.go:70-78
  | .del => .locked () true (all [.rd .cache, opt (all [.rd .order, .wr .order, .wr .cache])])
  -- RemoveMulti, hashmap/limitmap.go:81-91
  | .removeMulti => .locked () true (.star (all [.rd .cache, opt (all [.rd .order, .wr .order, .wr .cache])]))
  -- Len, hashmap/limitmap.go:94-98
  | .len => .locked () false (.rd .cache)

end LimitMapR

/-! ## LruCache -/
namespace LruCacheR

/-- The `lru.Cache` (cache/lrucache.go:16-19). -/
inductive Loc | lru deriving DecidableEq
inductive Op | get | remove | removeMulti | add deriving DecidableEq

def code : Op → Code Unit Loc
  -- Get, cache/lrucache.go:26-36; the library moves the entry to the front
  | .get => .locked () true (all [.rd .lru, opt (.wr .lru)])
  -- Remove, cache/lrucache.go:39-43
  | .remove => .locked () true (all [.rd .lru, opt (.wr .lru)])
  -- RemoveMulti, cache/lrucache.go:46-53
  | .removeMulti => .locked () true (.star (all [.rd .lru, opt (.wr .lru)]))
  -- Add, cache/lrucache.go:56-63
  | .add => opt (.locked () true (all [.rd .lru, .wr .lru]))

end LruCacheR

/-! ## TreeMap -/
namespace TreeMapR

/-- The B-tree (hashmap/treemap.go:26-29). -/
inductive Loc | tree deriving DecidableEq
inductive Op | put | get | del | ascend | descend deriving DecidableEq

def code : Op → Code Unit Loc
  -- Put, hashmap/treemap.go:37-44
  | .put => .locked () true (all [.rd .tree, .wr .tree])
  -- Get, hashmap/treemap.go:47-56
  | .get => .locked () false (.rd .tree)
  -- Del, hashmap/treemap.go:59-63
  | .del => .locked () true (all [.rd .tree, opt (.wr .tree)])
  -- Ascend, hashmap/treemap.go:66-73; the callback does not use the map
  | .ascend => .locked () false (.star (.rd .tree))
  -- Descend, hashmap/treemap.go:76-83; the callback does not use the map
  | .descend => .locked () false (.star (.rd .tree))

end TreeMapR

/-! ## Consistenthash -/
namespace ConsistenthashR

/-- The slice `keys`, the map `_m`, and the entries of the `sync.Map` `m` (hashmap/consistenthash.go:29-35). -/
inductive Loc | keys | nodes | ring (h : UInt64) deriving DecidableEq
inductive Op
  | add (hs : List UInt64)
  | get (h : UInt64)
  | getStr (h : UInt64)
  | getNext (hs : List UInt64)
  | del (hs : List UInt64)
  | nodes

/-- The hashes that are looked up or written are parameters. -/
def code : Op → Code Unit Loc
  -- Add, hashmap/consistenthash.go:47-65
  | .add hs => .locked () true (all [
      .star (all [.rd .nodes, opt (all [.wr .nodes, .star (all [.rd .keys, .wr .keys, all (hs.map fun h => opt (.armw (.ring h)))])])]),
      .rd .keys, .wr .keys])
  -- Get, hashmap/consistenthash.go:67-80
  | .get h => .locked () false (all [.rd .keys, opt (all [.rd .keys, .aload (.ring h)])])
  -- GetStr, hashmap/consistenthash.go:82-95
  | .getStr h => .locked () false (all [.rd .keys, opt (all [.rd .keys, .aload (.ring h)])])
  -- GetNextNodeStr, hashmap/consistenthash.go:97-124
  | .getNext hs => .locked () false (all [.rd .keys, opt (all [.rd .keys, all (hs.map fun h => .aload (.ring h)), .rd .keys])])
  -- Del, hashmap/consistenthash.go:126-142
  | .del hs => .locked () true (all [.rd .nodes, opt (all [.rd .keys, .wr .keys,
      all (hs.map fun h => all [.aload (.ring h), .alt (.armw (.ring h)) (all [.rd .keys, .wr .keys])]),
      .rd .keys, .wr .keys, .wr .nodes])])
  -- Nodes, hashmap/consistenthash.go:144-152
  | .nodes => .locked () true (.star (.rd .nodes))

end ConsistenthashR

/-! ## LimitHashMap -/
namespace LimitHashMapR

/-- `cache`, `order` with its elements, and the entries of a segment (hashmap/limithashmap.go:19-38). -/
inductive Loc | cache (s : Nat) | order (s : Nat) | entries (s : Nat) deriving DecidableEq
/-- The operations on a key are given by the segment of the key. -/
inductive Op | get (s : Nat) | put (s : Nat) | del (s : Nat) | contains (s : Nat) | clear (n : Nat) | len (n : Nat)

/-- One mutex for each segment. -/
def code : Op → Code Nat Loc
  -- Get, hashmap/limithashmap.go:146-158
  | .get s => .locked s false (all [.rd (.cache s), opt (all [.rd (.order s), .rd (.entries s)])])
  -- Put, hashmap/limithashmap.go:160-183
  | .put s => .locked s true (all [.rd (.cache s),
      .alt (all [.rd (.order s), .rd (.entries s), .rd (.order s), .wr (.entries s)])
        (all [.rd (.order s), opt (all [.rd (.order s), opt (all [.wr (.order s), .rd (.order s), .rd (.entries s), .wr (.cache s)])]),
          .wr (.entries s), .rd (.order s), .wr (.order s), .wr (.cache s)])])
  -- Del, hashmap/limithashmap.go:185-195
  | .del s => .locked s true (all [.rd (.cache s), opt (all [.rd (.order s), .wr (.order s), .wr (.cache s)])])
  -- Contains, hashmap/limithashmap.go:197-205
  | .contains s => .locked s false (.rd (.cache s))
  -- Clear, hashmap/limithashmap.go:207-214
  | .clear n => all ((List.range n).map fun s => .locked s true (all [.wr (.cache s), .rd (.order s), .wr (.order s)]))
  -- Len, hashmap/limithashmap.go:216-224
  | .len n => all ((List.range n).map fun s => .locked s true (.rd (.order s)))

end LimitHashMapR

/-! ## The credential store -/
namespace StoreAdminR

inductive Table | admin | client | mq | other deriving DecidableEq
/-- The pointer `kb` and the four maps of the bean (keystore/keystore.go:16-19, keystore/store.go:222-231). -/
inductive Loc | kb | table (t : Table) deriving DecidableEq
inductive Op | load | put (t : Table) | del (t : Table) | get (t : Table) | list (t : Table)

/-- All four maps, as `TEncode` reads them. -/
def encode : Code Unit Loc :=
  all [.rd .kb, .rd (.table .admin), .rd (.table .client), .rd (.table .mq), .rd (.table .other)]

def code : Op → Code Unit Loc
  -- Load, keystore/keystore.go:25-36
  | .load => .locked () true (all [.wr (.table .admin), .wr (.table .client), .wr (.table .mq), .wr (.table .other), .wr .kb])
  -- PutAdmin, PutClient, PutMq, PutOther, keystore/keystore.go:38-43, 71-76, 104-109, 137-142
  | .put t => .locked () true (all [.rd .kb, .wr (.table t), encode])
  -- DelAdmin, DelClient, DelMq, DelOther, keystore/keystore.go:45-52, 78-85, 111-118, 144-151
  | .del t => .locked () true (all [.rd .kb, .rd (.table t), opt (all [.rd .kb, .wr (.table t), encode])])
  -- GetAdmin, GetClient, GetMq, GetOther, keystore/keystore.go:54-59, 87-92, 120-125, 153-158
  | .get t => .locked () true (all [.rd .kb, .rd (.table t)])
  -- AdminList, ClientList, MqList, keystore/keystore.go:61-69, 94-102, 127-135
  | .list t => .locked () true (all [.rd .kb, .star (.rd (.table t))])

end StoreAdminR

/-! ## Map and MapL -/
namespace MapR

/-- The entries of the `sync.Map` `m`, and `len` (hashmap/map.go:17-20). -/
inductive Loc | slot (k : Nat) | len deriving DecidableEq
inductive Op | put (k : Nat) | get (k : Nat) | has (k : Nat) | del (k : Nat) | range (ks : List Nat) | len deriving DecidableEq

/-- No mutexes; keys are numbered. -/
def code : Op → Code Empty Loc
  -- MapL.Put, hashmap/map.go:28-35
  | .put k => all [.armw (.slot k), opt (.armw .len)]
  -- MapL.Get, hashmap/map.go:37-45
  | .get k => .aload (.slot k)
  -- MapL.Has, hashmap/map.go:47-50
  | .has k => .aload (.slot k)
  -- MapL.Del, hashmap/map.go:52-57
  | .del k => all [.armw (.slot k), opt (.armw .len)]
  -- MapL.Range, hashmap/map.go:62-71
  | .range ks => all (ks.map fun k => .aload (.slot k))
  -- MapL.Len, hashmap/map.go:73-75: a plain read
  | .len => .rd .len

end MapR

/-! ## LimitLock -/
namespace LimitLockR

/-- The channel and the two counters (lock/lock.go:127-132). -/
inductive Loc | ch | count | count' deriving DecidableEq
inductive Op | lock | unlock | cc | lockCount deriving DecidableEq

def code : Op → Code Empty Loc
  -- Lock, lock/lock.go:141-149
  | .lock => opt (all [.chan .ch, .armw .count])
  -- Unlock, lock/lock.go:152-155
  | .unlock => all [.chan .ch, .armw .count']
  -- Cc, lock/lock.go:158-160: plain reads
  | .cc => all [.rd .count, .rd .count']
  -- LockCount, lock/lock.go:163-165
  | .lockCount => .aload .count

end LimitLockR

/-! ## BloomFilter -/
namespace BloomR

/-- `numCount`, the three slices of `bits` and their words (cache/bloom.go:19-27). -/
inductive Loc | num | hdr (i : Fin 3) | word (i : Fin 3) (w : Nat) deriving DecidableEq
/-- Segment in use, its neighbours, and the words of the item: those of the hash values. -/
inductive Op | add (i : Fin 3) (ws : List Nat) | contains (i : Fin 3) (ws : List Nat)

/-- `getBitIndex`, cache/bloom.go:98-119. The neighbours are the next segment, which is dropped, and the one before. -/
def index (i : Fin 3) : Code Unit Loc :=
  all [.aload .num, .rd (.hdr i), opt (.locked () true
    (all [.rd (.hdr i), opt (.wr (.hdr i)), .rd (.hdr (i + 1)), opt (.wr (.hdr (i + 1)))]))]

def code : Op → Code Unit Loc
  -- Add, cache/bloom.go:77-84 with setBit, 59-64
  | .add i ws => .seq (.armw .num) (all (ws.map fun w => all [index i, .rd (.hdr i), .rd (.word i w), .wr (.word i w)]))
  -- Contains, cache/bloom.go:87-96 with testBit, 67-74
  | .contains i ws => all (ws.map fun w => all [index i, .rd (.hdr i), .rd (.word i w),
      opt (all [.rd (.hdr (i + 2)), .rd (.word (i + 2) w)])])

end BloomR

/-! ## The WebSocket handler -/
namespace HandlerR

/-- `err`, and the state of the connection a `Send` changes (websocket/wshandle.go:37-42). -/
inductive Loc | err | conn deriving DecidableEq
inductive Op | send | close | error | read deriving DecidableEq

def code : Op → Code Unit Loc
  -- Send, websocket/wshandle.go:96-101 with sendws, 90-94
  | .send => all [.rd .err, .alt (.rd .err) (.locked () true (.wr .conn))]
  -- Close, websocket/wshandle.go:103-109; closing the network connection is safe at any time
  | .close => .wr .err
  -- Error, websocket/wshandle.go:111-113
  | .error => .rd .err
  -- read, websocket/wshandle.go:115-134: receiving has its own state
  | .read => all [.star (.rd .err), opt (.wr .err), .wr .err]

end HandlerR

/-! ## GoPool -/
namespace GoPoolR

/-- The fields of the pool and its channels (pool/gopool/gopool.go:53-66). -/
inductive Loc | close | closeflag | tnum | count | id | funcnPool | pool | task (n : Nat) deriving DecidableEq
/-- `dispatch` is `funcn`, `worker` is `run`. -/
inductive Op | go | numUnExecu | close | turnOff | dispatch (ns : List Nat) | worker (n : Nat)

/-- The mutex is taken by `TryLock` in `Go` for the dispatcher it starts; here the dispatcher takes it. -/
def code : Op → Code Unit Loc
  -- Go, pool/gopool/gopool.go:85-95
  | .go => all [.rd .close, opt (all [.chan .funcnPool, .armw .tnum])]
  -- NumUnExecu, pool/gopool/gopool.go:98-100: a plain read
  | .numUnExecu => .rd .tnum
  -- Close, pool/gopool/gopool.go:103-114
  | .close => all [.armw .closeflag, opt (all [.wr .close, .chan .pool])]
  -- TurnOff, pool/gopool/gopool.go:116-122
  | .turnOff => all [.armw .closeflag, .alt (.wr .close) (all [.armw .closeflag, opt (.wr .close)])]
  -- funcn and _funcn, pool/gopool/gopool.go:124-155; the parameter is the workers that are given a function
  | .dispatch ns => .locked () true (all [.star (all [.chan .funcnPool, .rd .close,
      opt (all [.armw .count,
        .alt (.armw .id) (all [.rd .id, opt (.armw .id)]),
        opt (.chan .pool), all (ns.map fun n => opt (.chan (.task n)))]),
      .armw .tnum, opt (.rd .tnum)])])
  -- run and put, pool/gopool/gopool.go:31-51, 157-164
  | .worker n => .star (all [.chan (.task n), .armw .count, opt (.armw .closeflag), opt (.chan .pool)])

end GoPoolR

end Gofer.Race
