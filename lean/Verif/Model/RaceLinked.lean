import Verif.Spec.Race
/-!
# The memory accesses of LinkedHashMap

With values, as `Get` follows pointers without holding the mutex: it finds an element in the `sync.Map`, then its entry. Keys, elements, entries, iterators and the `sync.Map`s
are numbered.
-/
namespace Gofer.Race.Linked

/-- The pointer `m`; the links of `list` and of its elements; `count`; the entries of the `sync.Map`s; the field `Value` of the elements; the entries `entrykv`;
the field `current` of the iterators (hashmap/linkedhashmap.go:15-21, 32-35, 150-154). -/
inductive Loc where
  | m
  | list
  | count
  | slot (g k : Nat)
  | el (e : Nat)
  | kv (n : Nat)
  | it (i : Nat)
  deriving DecidableEq

/-- A number; a pointer to a `sync.Map`; the elements of the list; an element or nil; a pointer to an entry; the key of an entry. -/
inductive Val where
  | unit
  | gen (g : Nat)
  | els (l : List Nat)
  | elem (o : Option Nat)
  | ptr (n : Nat)
  | key (k : Nat)
  deriving DecidableEq

abbrev A := Act Unit Loc Val

/-- A new map (hashmap/linkedhashmap.go:23-30). -/
def mem0 : Loc → Val
  | .m => .gen 0
  | .list => .els []
  | .slot _ _ => .elem none
  | .it _ => .elem none
  | _ => .unit

/-- New memory: elements and entries. -/
def isCell : Loc → Prop
  | .el _ => True
  | .kv _ => True
  | _ => False

inductive Op where
  | put | loadOrStore | get | delete | back | front | clear | len | moveToFront | iterator | next
  deriving DecidableEq

/-- `kv := …`, `Lock`, `PushFront`, `Swap` (hashmap/linkedhashmap.go:38-42, 57-61): the entry `n`, the element `e`, the `sync.Map` `g`, the list before, the element
of the key before. -/
def insert (k n e g : Nat) (L : List Nat) (old : Option Nat) : List A :=
  [.wr (.kv n) (.key k), .lock (), .wr (.el e) (.ptr n), .rd .list (.els L), .wr .list (.els (e :: L)), .rd .m (.gen g),
    .armw (.slot g k) (.elem old) (.elem (some e))]

/-- The oldest element `o` with entry `n` and key `k` leaves (hashmap/linkedhashmap.go:45-48, 64-67). -/
def evict (g o n k : Nat) (L L' : List Nat) (old : Option Nat) : List A :=
  [.rd .list (.els L), .wr .list (.els L'), .rd (.el o) (.ptr n), .rd (.kv n) (.key k), .rd .m (.gen g),
    .armw (.slot g k) (.elem old) (.elem none)]

/-- An element leaves the list, or moves in it (`Remove`, `MoveToFront` of container/list). -/
def relink (L L' : List Nat) : List A := [.rd .list (.els L), .wr .list (.els L')]

/-- `t.count++`, `t.count--`. -/
def inc : List A := [.rd .count .unit, .wr .count .unit]

/-- The entry of an element. -/
def entry (e n k : Nat) : List A := [.rd (.el e) (.ptr n), .rd (.kv n) (.key k)]

/-- The action sequences of the methods. -/
inductive Runs : Op → List A → Prop where
  /-- Put of a new key (hashmap/linkedhashmap.go:37-43, 51). -/
  | putNew (k n e g : Nat) (L : List Nat) :
      Runs .put (insert k n e g L none ++ inc ++ [.rd .count .unit] ++ [.unlock ()])
  /-- Put of a new key into a full map (hashmap/linkedhashmap.go:37-50). -/
  | putEvict (k n e g o n' k' : Nat) (L L1 L2 : List Nat) (old : Option Nat) (ho : o ∈ L1) (h : ∀ c ∈ L2, c ∈ L1) :
      Runs .put (insert k n e g L none ++ inc ++ [.rd .count .unit] ++ evict g o n' k' L1 L2 old ++ inc ++ [.unlock ()])
  /-- Put of a key that is there (hashmap/linkedhashmap.go:37-42, 51-53). -/
  | putOld (k n e g p : Nat) (L L1 L2 : List Nat) (h : ∀ c ∈ L2, c ∈ L1) :
      Runs .put (insert k n e g L (some p) ++ relink L1 L2 ++ [.unlock ()])
  /-- LoadOrStore of a new key (hashmap/linkedhashmap.go:56-62, 77). -/
  | losNew (k n e g : Nat) (L : List Nat) :
      Runs .loadOrStore (insert k n e g L none ++ inc ++ [.rd .count .unit] ++ [.unlock ()])
  /-- LoadOrStore of a new key into a full map (hashmap/linkedhashmap.go:56-69). -/
  | losEvict (k n e g o n' k' : Nat) (L L1 L2 : List Nat) (old : Option Nat) (ho : o ∈ L1) (h : ∀ c ∈ L2, c ∈ L1) :
      Runs .loadOrStore (insert k n e g L none ++ inc ++ [.rd .count .unit] ++ evict g o n' k' L1 L2 old ++ inc ++ [.unlock ()])
  /-- LoadOrStore of a key that is there (hashmap/linkedhashmap.go:56-61, 70-77). -/
  | losOld (k n e g p n' k' : Nat) (L L1 L2 : List Nat) (h : ∀ c ∈ L2, c ∈ L1) :
      Runs .loadOrStore (insert k n e g L (some p) ++ relink L1 L2 ++ entry p n' k' ++ [.unlock ()])
  /-- Get, not found (hashmap/linkedhashmap.go:80-90). -/
  | getNone (g k : Nat) : Runs .get [.rd .m (.gen g), .aload (.slot g k) (.elem none)]
  /-- Get, found (hashmap/linkedhashmap.go:80-90): no mutex. -/
  | getSome (g k e n k' : Nat) : Runs .get ([.rd .m (.gen g), .aload (.slot g k) (.elem (some e))] ++ entry e n k')
  /-- Delete, not found (hashmap/linkedhashmap.go:92-95). -/
  | delNone (g k : Nat) : Runs .delete [.lock (), .rd .m (.gen g), .aload (.slot g k) (.elem none), .unlock ()]
  /-- Delete (hashmap/linkedhashmap.go:92-100). -/
  | delSome (g k e : Nat) (L L' : List Nat) (old : Option Nat) (h : ∀ c ∈ L', c ∈ L) :
      Runs .delete ([.lock (), .rd .m (.gen g), .aload (.slot g k) (.elem (some e))] ++ relink L L' ++
        [.rd .m (.gen g), .armw (.slot g k) (.elem old) (.elem none)] ++ inc ++ [.unlock ()])
  /-- Back of an empty map (hashmap/linkedhashmap.go:102-112). -/
  | backNone (L : List Nat) : Runs .back [.lock (), .rd .list (.els L), .unlock ()]
  /-- Back (hashmap/linkedhashmap.go:102-112). -/
  | backSome (L : List Nat) (e n k : Nat) (h : e ∈ L) : Runs .back ([.lock (), .rd .list (.els L)] ++ entry e n k ++ [.unlock ()])
  /-- Front of an empty map (hashmap/linkedhashmap.go:114-125). -/
  | frontNone (L : List Nat) : Runs .front [.lock (), .rd .list (.els L), .unlock ()]
  /-- Front (hashmap/linkedhashmap.go:114-125). -/
  | frontSome (L : List Nat) (e n k : Nat) (h : e ∈ L) : Runs .front ([.lock (), .rd .list (.els L)] ++ entry e n k ++ [.unlock ()])
  /-- Clear (hashmap/linkedhashmap.go:127-134). -/
  | clear (g : Nat) (L : List Nat) :
      Runs .clear [.lock (), .wr .m (.gen g), .rd .list (.els L), .wr .list (.els []), .wr .count .unit, .unlock ()]
  /-- Len (hashmap/linkedhashmap.go:136-140). -/
  | len : Runs .len [.lock (), .rd .count .unit, .unlock ()]
  /-- MoveToFront, not found (hashmap/linkedhashmap.go:142-148). -/
  | moveNone (g k : Nat) : Runs .moveToFront [.lock (), .rd .m (.gen g), .aload (.slot g k) (.elem none), .unlock ()]
  /-- MoveToFront (hashmap/linkedhashmap.go:142-148). -/
  | moveSome (g k e : Nat) (L L' : List Nat) (h : ∀ c ∈ L', c ∈ L) :
      Runs .moveToFront ([.lock (), .rd .m (.gen g), .aload (.slot g k) (.elem (some e))] ++ relink L L' ++ [.unlock ()])
  /-- Iterator (hashmap/linkedhashmap.go:174-184). -/
  | iterator (i : Nat) (L : List Nat) (o : Option Nat) (h : ∀ e, o = some e → e ∈ L) :
      Runs .iterator [.lock (), .rd .list (.els L), .wr (.it i) (.elem o), .unlock ()]
  /-- Next at the end (hashmap/linkedhashmap.go:156-172). -/
  | nextNone (i : Nat) : Runs .next [.lock (), .rd (.it i) (.elem none), .unlock ()]
  /-- Next (hashmap/linkedhashmap.go:156-172). -/
  | nextSome (i e n k : Nat) (L : List Nat) (o : Option Nat) (h : ∀ e, o = some e → e ∈ L) :
      Runs .next ([.lock (), .rd (.it i) (.elem (some e)), .rd (.el e) (.ptr n), .rd .list (.els L), .wr (.it i) (.elem o),
        .rd (.kv n) (.key k), .unlock ()])

end Gofer.Race.Linked
