import Verif.Model.Locked
import Verif.Model.LimitMap
import Verif.Model.LimitHashMap
import Verif.Model.TreeMap
import Verif.Model.Lru
import Verif.Model.Consistenthash
/-!
# The containers as objects under mutexes

Statement by statement: each step is one access to the map or the list of the container, so goroutines interleave between any two of them.
A call of a library structure (`container/list`, `btree`, `groupcache/lru`) is one step.
-/
namespace Gofer

namespace LimitMap
open Gofer.Spec.LimitMap (Op Res)
variable {K V : Type} [DecidableEq K]

/-- `RLock` or `Lock` (hashmap/limitmap.go:38, 48, 71, 82, 95). -/
def rlock : Op K V → Bool
  | .get _ => true
  | .len => true
  | _ => false

/-- Where a method is. -/
inductive Loc (K V : Type) where
  | look
  | read (e : Nat)
  | set (e : Nat) (k : K) (prev : V)
  | front (e : Nat) (prev : V)
  | full
  | unkey (e : Nat)
  | push
  | key (e : Nat)
  | dels (ks : List K)
  | delk (k : K) (ks : List K)

/-- Beginning of a method. -/
def locStart : Op K V → Loc K V
  | .del k => .dels [k]
  | .removeMulti ks => .dels ks
  | _ => .look

/-- One step of the loop of `Del` (hashmap/limitmap.go:74-77) and `RemoveMulti` (85-90): the list, then the map. -/
def delsStep : Loc K V → LM K V → LM K V × (Loc K V ⊕ Res V)
  | .dels (k :: ks), t =>
    match t.cache.load k with
    | some e => ({ t with order := t.order.remove e }, .inl (.delk k ks))
    | none => (t, .inl (.dels ks))
  | .delk k ks, t => ({ t with cache := t.cache.delete k }, .inl (.dels ks))
  | _, t => (t, .inr .unit)

/-- One step of `Get` (hashmap/limitmap.go:40-43), `Put` (50-66), `Del`, `RemoveMulti` and `Len` (97). -/
def locStep (zv : V) : Op K V → Loc K V → LM K V → LM K V × (Loc K V ⊕ Res V)
  | .get k, .look, t =>
    match t.cache.load k with
    | some e => (t, .inl (.read e))
    | none => (t, .inr (.val zv false))
  | .get _, .read e, t => (t, .inr (resVal zv ((t.order.val e).map Prod.snd)))
  | .put k _, .look, t =>
    match t.cache.load k with
    | some e =>
      match t.order.val e with
      | some (k', prev) => (t, .inl (.set e k' prev))
      | none => (t, .inr (.val zv false))
    | none => (t, .inl .full)
  | .put _ v, .set e k' prev, t => ({ t with order := t.order.setVal e (k', v) }, .inl (.front e prev))
  | .put _ _, .front e prev, t => ({ t with order := t.order.moveToFront e }, .inr (.val prev true))
  | .put _ _, .full, t =>
    if (t.cache.size : Int) > t.capacity ∧ t.order.back ≠ 0 then ({ t with order := t.order.remove t.order.back }, .inl (.unkey t.order.back))
    else (t, .inl .push)
  | .put _ _, .unkey e, t =>
    match t.order.val e with
    | some x => ({ t with cache := t.cache.delete x.1 }, .inl .push)
    | none => (t, .inl .push)
  | .put k v, .push, t => ({ t with order := (t.order.pushFront (k, v)).1 }, .inl (.key (t.order.pushFront (k, v)).2))
  | .put k _, .key e, t => ({ t with cache := t.cache.store k e }, .inr (.val zv false))
  | .del _, l, t => delsStep l t
  | .removeMulti _, l, t => delsStep l t
  | .len, _, t => (t, .inr (.num t.cache.size))
  | _, _, t => (t, .inr .unit)

/-- `LimitMap` under `mc.lock`. -/
def obj (zv : V) : Locked.Obj Unit (LM K V) (Op K V) (Res V) (Loc K V) := ⟨fun _ => (), rlock, locStart, locStep zv⟩
end LimitMap

namespace LimitHashMap
open Gofer.Spec.LimitHashMap (Op Res)
variable {K V : Type} [GoValue V]

/-- What is done under the mutex of one segment: the methods with a key, and what `Clear` and `Len` (hashmap/limithashmap.go:207-224) do
to segment `i`; these two are as many single calls as there are segments. -/
inductive Op1 (K V : Type) where
  | put (k : K) (v : V)
  | get (k : K)
  | del (k : K)
  | contains (k : K)
  | clear1 (i : Nat)
  | len1 (i : Nat)
deriving DecidableEq

/-- The segment of a call: `getSegment` (hashmap/limithashmap.go:141-144), or the index of the loop. -/
def Op1.seg (hash : K → UInt64) (segs : Nat) : Op1 K V → Nat
  | .put k _ => (hash k).toNat % segs
  | .get k => (hash k).toNat % segs
  | .del k => (hash k).toNat % segs
  | .contains k => (hash k).toNat % segs
  | .clear1 i => i
  | .len1 i => i

/-- `RLock` or `Lock` (hashmap/limithashmap.go:148, 162, 187, 199, 209, 219). -/
def rlock : Op1 K V → Bool
  | .get _ => true
  | .contains _ => true
  | _ => false

/-- One call inside the segment. -/
def step1 (hash : K → UInt64) (cap : Int) (s : Seg V) : Op1 K V → Seg V × Res V
  | .put k v =>
    match s.put cap (hash k) (toAny v) with
    | some (s', prev) => (s', resVal prev)
    | none => (s, .panic)
  | .get k => (s, resVal (s.get (hash k)))
  | .del k => (s.del (hash k), .unit)
  | .contains k => (s, .ok (s.cache.load (hash k)).isSome)
  | .clear1 _ => (s.clear, .unit)
  | .len1 _ => (s, .num s.order.len)

/-- Where a method is. -/
inductive Loc (V : Type) where
  | look
  | read (e : Nat)
  | set (e : Nat) (h : UInt64) (prev : V)
  | full
  | unkey (e : Nat)
  | push
  | key (e : Nat)
  | delk

/-- One step of `Get` (hashmap/limithashmap.go:151-157), `Put` (165-182), `Del` (190-194), `Contains` (202-204), `Clear` (210-211) and `Len` (220) inside the segment. -/
def locStep (hash : K → UInt64) (cap : Int) : Op1 K V → Loc V → Seg V → Seg V × (Loc V ⊕ Res V)
  | .get k, .look, s =>
    match s.cache.load (hash k) with
    | some e => (s, .inl (.read e))
    | none => (s, .inr (.val GoValue.zero false))
  | .get _, .read e, s =>
    match s.order.val e with
    | some x => (s, .inr (resVal x.2))
    | none => (s, .inr (.val GoValue.zero false))
  | .contains k, _, s => (s, .inr (.ok (s.cache.load (hash k)).isSome))
  | .put k _, .look, s =>
    match s.cache.load (hash k) with
    | some e =>
      match s.order.val e with
      | some x =>
        match x.2 with
        | some prev => (s, .inl (.set e x.1 prev))
        | none => (s, .inr .panic)
      | none => (s, .inr .panic)
    | none => (s, .inl .full)
  | .put _ v, .set e h prev, s => ({ s with order := s.order.setVal e (h, toAny v) }, .inr (.val prev true))
  | .put _ _, .full, s =>
    if (s.order.len : Int) ≥ cap ∧ s.order.back ≠ 0 then ({ s with order := s.order.remove s.order.back }, .inl (.unkey s.order.back))
    else (s, .inl .push)
  | .put _ _, .unkey e, s =>
    match s.order.val e with
    | some x => ({ s with cache := s.cache.delete x.1 }, .inl .push)
    | none => (s, .inl .push)
  | .put k v, .push, s =>
    ({ s with order := (s.order.pushFront (hash k, toAny v)).1 }, .inl (.key (s.order.pushFront (hash k, toAny v)).2))
  | .put k _, .key e, s => ({ s with cache := s.cache.store (hash k) e }, .inr (.val GoValue.zero false))
  | .del k, .look, s =>
    match s.cache.load (hash k) with
    | some e => ({ s with order := s.order.remove e }, .inl .delk)
    | none => (s, .inr .unit)
  | .del k, .delk, s => ({ s with cache := s.cache.delete (hash k) }, .inr .unit)
  | .clear1 _, .look, s => ({ s with cache := AMap.empty }, .inl .delk)
  | .clear1 _, .delk, s => ({ s with order := s.order.init }, .inr .unit)
  | .len1 _, _, s => (s, .inr (.num s.order.len))
  | _, _, s => (s, .inr .unit)

/-- The segments of a `LimitHashMap`, each under its `mu`. -/
def obj (hash : K → UInt64) (cap : Int) (segs : Nat) : Locked.Obj Nat (Seg V) (Op1 K V) (Res V) (Loc V) :=
  ⟨Op1.seg hash segs, rlock, fun _ => .look, locStep hash cap⟩
end LimitHashMap

namespace TreeMap
open Gofer.Spec.TreeMap (Op Res)
variable {K V : Type} [LinearOrder K]

/-- The methods: those of `Op`, and the iterations with a callback that is given what it was called with before. -/
inductive OpA (K V : Type) where
  | base (op : Op K V)
  | ascend (iter : List (K × V) → K → V → Bool)
  | descend (iter : List (K × V) → K → V → Bool)

/-- Results; an iteration gives the calls it made. -/
inductive ResA (K V : Type) where
  | base (r : Res V)
  | calls (c : List (K × V))

/-- `RLock` or `Lock` (hashmap/treemap.go:38, 48, 60, 67, 77). -/
def rlock : OpA K V → Bool
  | .base (.get _) => true
  | .base _ => false
  | _ => true

/-- One step of `Put`, `Get`, `Del` (hashmap/treemap.go:40, 50, 62: the whole call of the tree) or of an iteration (69-72, 79-82: one call of the callback). The local state is the
calls made. -/
def locStep (zv : V) : OpA K V → List (K × V) → TM K V → TM K V × (List (K × V) ⊕ ResA K V)
  | .base op, _, m => ((step zv m op).1, .inr (.base (step zv m op).2))
  | .ascend iter, seen, m =>
    match m.tree[seen.length]? with
    | some y => if iter seen y.key y.value then (m, .inl (seen ++ [(y.key, y.value)])) else (m, .inr (.calls (seen ++ [(y.key, y.value)])))
    | none => (m, .inr (.calls seen))
  | .descend iter, seen, m =>
    match m.tree.reverse[seen.length]? with
    | some y => if iter seen y.key y.value then (m, .inl (seen ++ [(y.key, y.value)])) else (m, .inr (.calls (seen ++ [(y.key, y.value)])))
    | none => (m, .inr (.calls seen))

/-- `TreeMap` under `m.mutex`. -/
def obj (zv : V) : Locked.Obj Unit (TM K V) (OpA K V) (ResA K V) (List (K × V)) := ⟨fun _ => (), rlock, fun _ => [], locStep zv⟩

/-- One call with iterations. -/
def stepA (zv : V) (m : TM K V) : OpA K V → TM K V × ResA K V
  | .base op => ((step zv m op).1, .base (step zv m op).2)
  | .ascend iter => (m, .calls (ascend m iter))
  | .descend iter => (m, .calls (descend m iter))
end TreeMap

namespace Lru
open Gofer.Spec.Lru (Op Res)
variable {K V : Type} [DecidableEq K] [GoValue V]

/-- One step of `Get`, `Remove`, `Add` (cache/lrucache.go:29-35, 42, 62: the whole call of the library) or of the loop of `RemoveMulti` (50-52); the local state is what is left of the keys.
`Add` with a nil key returns before taking the mutex; that it does not wait is left out. -/
def locStep (str : String → K) : Op K V → List String → LC K V → LC K V × (List String ⊕ Res V)
  | .removeMulti _, [], c => (c, .inr .unit)
  | .removeMulti _, k :: ks, c => (lruRemove c (some (str k)), .inl ks)
  | op, _, c => ((step str c op).1, .inr (step str c op).2)

/-- `LruCache` under `lc.lock`, a plain mutex. -/
def obj (str : String → K) : Locked.Obj Unit (LC K V) (Op K V) (Res V) (List String) :=
  ⟨fun _ => (), fun _ => false, fun op => match op with | .removeMulti ks => ks | _ => [], locStep str⟩
end Lru

namespace Consistenthash
variable {P : Type} [LinearOrder P]

/-- All methods. -/
inductive OpC where
  | add (ks : List (BitVec 64))
  | del (k : BitVec 64)
  | get (v : BitVec 64)
  | getStr (v : List UInt8)
  | next (v : List UInt8) (step : Int)
  | nodes

/-- Results. -/
inductive ResC where
  | unit
  | res (r : Res)
  | next (r : Option (List (BitVec 64) × Bool))
  | nodes (l : List (BitVec 64))
deriving DecidableEq

/-- One call. -/
def stepC (hash : List UInt8 → P) (t : CH P) : OpC → CH P × ResC
  | .add ks => (add hash t ks, .unit)
  | .del k => (del t k, .unit)
  | .get v => (t, .res (get hash t v))
  | .getStr v => (t, .res (getStr hash t v))
  | .next v n => (t, .next (getNextNode hash t v n))
  | .nodes => (t, .nodes (nodesOf t))

/-- `RLock` or `Lock` (hashmap/consistenthash.go:48, 68, 83, 98, 127, 145). -/
def rlock : OpC → Bool
  | .add _ => false
  | .del _ => false
  | .nodes => false
  | _ => true

/-- Where a method is: `Add` before a node or at a replica of a node; any other method is one step. -/
inductive Loc where
  | keys (ks : List (BitVec 64))
  | reps (key : BitVec 64) (is : List Nat) (ks : List (BitVec 64))
  | one

/-- One step of `Add` (hashmap/consistenthash.go:50-64), the others in one step: readers do not disturb each other and a writer is alone, so finer steps would change nothing. -/
def locStep (hash : List UInt8 → P) : OpC → Loc → CH P → CH P × (Loc ⊕ ResC)
  | .add _, .keys [], t => ({ t with keys := sortKeys t.keys }, .inr .unit)
  | .add _, .keys (k :: ks), t =>
    match t.nodes.load k with
    | some _ => (t, .inl (.keys ks))
    | none => ({ t with nodes := t.nodes.store k () }, .inl (.reps k (List.range t.replicas) ks))
  | .add _, .reps _ [] ks, t => (t, .inl (.keys ks))
  | .add _, .reps k (i :: is) ks, t => (addReplica hash k t i, .inl (.reps k is ks))
  | op, _, t => ((stepC hash t op).1, .inr (stepC hash t op).2)

/-- `Consistenthash` under `t.mux`. -/
def obj (hash : List UInt8 → P) : Locked.Obj Unit (CH P) OpC ResC Loc :=
  ⟨fun _ => (), rlock, fun op => match op with | .add ks => .keys ks | _ => .one, locStep hash⟩
end Consistenthash

end Gofer
