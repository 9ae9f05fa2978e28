import Mathlib.Order.Defs.LinearOrder
import Verif.Model.AMap
import Verif.Model.Num
import Verif.Model.Crc64
import Verif.Spec.Ring

/-!
# Model of `hashmap/consistenthash.go`

The model is generic in the type `P` of hash values (uint64, compared as numbers) and in the hash
function, so the theorems hold for every hash; `crc` below is the one the code uses.
The methods hold `t.mux`, so a history of calls is a sequence. `t.m` is the `Map` of
`hashmap/map.go` (see C10), here an `AMap`. Node ids are int64 = `BitVec 64`. `replicas ≤ 0` behaves
as 0 replicas, hence `Nat`.
-/
namespace Gofer.Consistenthash
open Gofer.Spec.Ring (Op)

/-- `int64ToBytes` (hashmap/consistenthash.go:17-23): the same loop as `util.Int64ToBytes`. -/
def int64ToBytes (n : BitVec 64) : List UInt8 := Num.int64ToBytes n

/-- `hash` (hashmap/consistenthash.go:25-27), as a number. -/
def crc (bs : List UInt8) : Nat := (Crc64.crc64 bs).toNat

variable {P : Type} [LinearOrder P]

/-- `Consistenthash` (hashmap/consistenthash.go:29-35). `alloc` says that `t.keys` is not nil. -/
structure CH (P : Type) where
  replicas : Nat
  keys : List P
  alloc : Bool
  m : AMap P (BitVec 64)
  nodes : AMap (BitVec 64) Unit

/-- `NewConsistenthash` (hashmap/consistenthash.go:37-45). -/
def new (replicas : Nat) : CH P := ⟨replicas, [], false, AMap.empty, AMap.empty⟩

/-- Insertion for `sortKeys`. -/
def insertKey (k : P) : List P → List P
  | [] => [k]
  | x :: xs => if k ≤ x then k :: x :: xs else x :: insertKey k xs

/-- Library `sort.Slice` with `<`: the sorted permutation (any sorting algorithm gives the same list). -/
def sortKeys : List P → List P
  | [] => []
  | x :: xs => insertKey x (sortKeys xs)

/-- Ring point of replica `i` of a node (hashmap/consistenthash.go:54-58). -/
def point (hash : List UInt8 → P) (i : Nat) (key : BitVec 64) : P :=
  hash (int64ToBytes (BitVec.ofNat 64 i) ++ int64ToBytes key)

/-- Body of the replica loop (hashmap/consistenthash.go:54-60). -/
def addReplica (hash : List UInt8 → P) (key : BitVec 64) (t : CH P) (i : Nat) : CH P :=
  { t with keys := t.keys ++ [point hash i key], alloc := true, m := t.m.store (point hash i key) key }

/-- Body of the node loop (hashmap/consistenthash.go:51-62). -/
def addKey (hash : List UInt8 → P) (t : CH P) (key : BitVec 64) : CH P :=
  match t.nodes.load key with
  | some _ => t
  | none => (List.range t.replicas).foldl (addReplica hash key) { t with nodes := t.nodes.store key () }

/-- `Add` (hashmap/consistenthash.go:47-65). -/
def add (hash : List UInt8 → P) (t : CH P) (keys : List (BitVec 64)) : CH P :=
  let t := keys.foldl (addKey hash) t
  { t with keys := sortKeys t.keys }

/-- `Del` (hashmap/consistenthash.go:126-142). `Range` visits the entries of `t.m` in some order, which
the final sort makes irrelevant; `keys[:0]` keeps the nil-ness, and appending allocates. -/
def del (t : CH P) (key : BitVec 64) : CH P :=
  match t.nodes.load key with
  | some _ =>
    let keep := (t.m.entries.filter fun p => p.2 ≠ key).map Prod.fst
    let drop := (t.m.entries.filter fun p => p.2 = key).map Prod.fst
    { t with keys := sortKeys keep
             alloc := t.alloc || !keep.isEmpty
             m := drop.foldl AMap.delete t.m
             nodes := t.nodes.delete key }
  | none => t

/-- Library `sort.Search` loop; `fuel` bounds the number of iterations. -/
def searchLoop (f : Nat → Bool) : Nat → Nat → Nat → Nat
  | 0, i, _ => i
  | fuel + 1, i, j =>
    if i < j then
      let h := (i + j) / 2
      if !f h then searchLoop f fuel (h + 1) j else searchLoop f fuel i h
    else i

/-- Library `sort.Search(n, f)`. -/
def search (n : Nat) (f : Nat → Bool) : Nat := searchLoop f n 0 n

/-- The predicate `t.keys[i] >= keyu64` (hashmap/consistenthash.go:74, 89, 104). -/
def geAt (keys : List P) (x : P) (i : Nat) : Bool :=
  match keys[i]? with
  | some k => decide (x ≤ k)
  | none => false

/-- The index with wrap-around (hashmap/consistenthash.go:74-77, 89-92, 104-107). -/
def index (t : CH P) (x : P) : Nat :=
  let idx := search t.keys.length (geAt t.keys x)
  if idx ≥ t.keys.length then 0 else idx

/-- Results of `Get`/`GetStr`. -/
inductive Res where
  | absent
  | node (n : BitVec 64)
  | panic
deriving DecidableEq

/-- The body shared by `Get` and `GetStr` (hashmap/consistenthash.go:70-79, 85-94). -/
def getPoint (t : CH P) (x : P) : Res :=
  if t.alloc = false then .absent
  else
    match t.keys[index t x]? with
    | none => .panic
    | some k =>
      match t.m.load k with
      | some n => .node n
      | none => .absent

/-- `Get` (hashmap/consistenthash.go:67-80). -/
def get (hash : List UInt8 → P) (t : CH P) (value : BitVec 64) : Res := getPoint t (hash (int64ToBytes value))

/-- `GetStr` (hashmap/consistenthash.go:82-95). -/
def getStr (hash : List UInt8 → P) (t : CH P) (value : List UInt8) : Res := getPoint t (hash value)

/-- The loop of `GetNextNodeStr` (hashmap/consistenthash.go:111-122) over the keys after `idx`. -/
def nextLoop (m : AMap P (BitVec 64)) (n1 : BitVec 64) (step : Int) : List P → List (BitVec 64) → List (BitVec 64)
  | [], nodes => nodes
  | k :: ks, nodes =>
    let nodes :=
      match m.load k with
      | some node => if node ≠ n1 then (if node ∈ nodes then nodes else nodes ++ [node]) else nodes
      | none => nodes
    if (nodes.length : Int) = step then nodes else nextLoop m n1 step ks nodes

/-- `GetNextNodeStr` (hashmap/consistenthash.go:97-124): `none` is the panic on an empty non-nil ring;
otherwise the nodes and `ok`. The local set `m` always equals the elements of `nodes`. If the primary
point has no owner, `n1` is 0. -/
def getNextNode (hash : List UInt8 → P) (t : CH P) (value : List UInt8) (step : Int) :
    Option (List (BitVec 64) × Bool) :=
  if t.alloc = false then some ([], false)
  else
    let idx := index t (hash value)
    match t.keys[idx]? with
    | none => none
    | some k =>
      let n1 := (t.m.load k).getD 0
      some (nextLoop t.m n1 step (t.keys.drop (idx + 1)) [], (t.m.load k).isSome)

/-- `Nodes` (hashmap/consistenthash.go:144-152), in some order. -/
def nodesOf (t : CH P) : List (BitVec 64) := t.nodes.entries.map Prod.fst

/-- One call. -/
def step (hash : List UInt8 → P) (t : CH P) : Op (BitVec 64) → CH P
  | .add ks => add hash t ks
  | .del k => del t k

/-- A history of calls on a new ring. -/
def exec (hash : List UInt8 → P) (r : Nat) (os : List (Op (BitVec 64))) : CH P := os.foldl (step hash) (new r)

end Gofer.Consistenthash
