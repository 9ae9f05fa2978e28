import Verif.Model.AMap
import Verif.Spec.SyncMap
/-!
# `Map` and `MapL` (hashmap/map.go) over the algorithm of `sync.Map`

`sync.Map` is that of the toolchain named in go.mod (Go 1.23.2, sync/map.go): a read-only map that is replaced as a whole, a second map `dirty` under a mutex, and
entries with an atomic pointer that both share. Each step is one atomic access to shared memory. Steps are joined where nobody can tell:
* accesses to `dirty` and `misses`, which need the mutex, go with the next access to `read` or to an entry, or with the step that is next to them;
* a loop of `Load` and `CompareAndSwap` on the pointer of an entry is its last round: the rounds before changed nothing.

An entry is made for one key and stays with it, so it is named by the key and a number. `MapL` adds to its counter after its operation on the map; nothing but `Len` (C173) sees that.
-/
namespace Gofer.SyncMap
open Gofer.Spec.Map (Op Res)
open Gofer.Spec.SyncMap (Call Out)
open Gofer.Spec.Linear (Ev)

/-- The pointer of an entry: nil (deleted), `expunged` (deleted and not in `dirty`), or to a value. -/
inductive Ptr (W : Type) where
  | nil
  | expunged
  | val (w : W)

/-- The value pointed to. -/
def Ptr.get {W : Type} : Ptr W → Option W
  | .val w => some w
  | _ => none

/-- Operations on the `sync.Map`. -/
inductive Prim (K W : Type) where
  | load (k : K)
  | swap (k : K) (w : W)
  | del (k : K)
  | range

/-- What they return: the value that was there; what the callback was given and whether `Range` went through. -/
inductive Raw (K W : Type) where
  | prev (o : Option W)
  | seq (l : List (K × W)) (all : Bool)

/-- Where a goroutine is in an operation: before the first look at `read`; before `mu.Lock`; with the mutex, before the second look at `read`; in `Swap` with the mutex, before
`unexpungeLocked`, before `swapLocked`, in the loop of `dirtyLocked` with the entries to come, before the new entry; with the mutex, before `mu.Unlock`, with what comes after it; without
mutex, before the access to the entry `e` (`taken`: it was removed from `dirty`); in the loop of `Range`, with the entries to come and what the callback was given; before the return. -/
inductive Ph (K W : Type) where
  | start
  | wait
  | locked
  | unexp (e : Nat)
  | swapL (e : Nat)
  | exp (todo : List (K × Nat))
  | pub
  | rel (next : Ph K W)
  | fin (e : Nat) (taken : Bool)
  | iter (todo : List (K × Nat)) (seen : List (K × W))
  | out (r : Raw K W)

variable {K V : Type} [DecidableEq K] [GoValue V]

/-- The operation on the `sync.Map`: Put is `Swap`, Get and Has are `Load`, Del is `LoadAndDelete` (hashmap/map.go:28-57, 87-112), Range is `Range` (hashmap/map.go:62-71, 117-126). -/
def prim : Call K V → Prim K (Option V)
  | .base (.put k v) => .swap k (toAny v)
  | .base (.get k) => .load k
  | .base (.has k) => .load k
  | .base (.del k) => .del k
  | .range => .range

/-- What the method makes of the result (hashmap/map.go:28-71, 87-126). -/
def answer : Call K V → Raw K (Option V) → Out K V
  | .base (.put _ _), .prev (some (some old)) => .base (.val old true)
  | .base (.put _ _), _ => .base (.val GoValue.zero false)
  | .base (.get _), .prev (some (some v)) => .base (.val v true)
  | .base (.get _), .prev (some none) => .base (.val GoValue.zero true)
  | .base (.get _), _ => .base (.val GoValue.zero false)
  | .base (.has _), .prev o => .base (.ok o.isSome)
  | .base (.del _), .prev o => .base (.ok o.isSome)
  | .range, .seq l all => .seq (l.map fun p => (p.1, p.2.getD GoValue.zero)) all
  | _, _ => .base (.ok false)

/-- A goroutine: outside, or in call number `id`. -/
inductive G (K V : Type) where
  | idle
  | run (id : Nat) (c : Call K V) (p : Ph K (Option V))

/-- `sync.Map` (sync/map.go: `Map`, `readOnly`, `entry`): who has the mutex, `read`, `dirty` (`none` is nil), `misses`, the pointers of the entries and the number of the next one;
the goroutines; the number of the next call; calls and returns seen. -/
structure St (K V : Type) where
  mu : Option Nat
  read : AMap K Nat
  amended : Bool
  dirty : Option (AMap K Nat)
  misses : Nat
  heap : K → Nat → Ptr (Option V)
  fresh : Nat
  g : Nat → G K V
  next : Nat
  hist : List (Ev (Call K V) (Out K V))

/-- NewMap, NewMapL (hashmap/map.go:24-26, 83-85). -/
def St.init : St K V := ⟨none, AMap.empty, false, none, 0, fun _ _ => .nil, 0, fun _ => .idle, 0, []⟩

def setG (s : St K V) (t : Nat) (x : G K V) : St K V := { s with g := fun i => if i = t then x else s.g i }

def setP (s : St K V) (k : K) (e : Nat) (p : Ptr (Option V)) : St K V :=
  { s with heap := fun k' e' => if k' = k ∧ e' = e then p else s.heap k' e' }

/-- `m.dirty[k]`. -/
def St.look (s : St K V) (k : K) : Option Nat := s.dirty.bind fun d => d.load k

/-- `m.read.Store(&readOnly{m: m.dirty})`, `m.dirty = nil`, `m.misses = 0` (sync/map.go: `missLocked`, `Range`). -/
def promote (s : St K V) : St K V := { s with read := s.dirty.getD AMap.empty, amended := false, dirty := none, misses := 0 }

/-- `missLocked` (sync/map.go). -/
def miss (s : St K V) : St K V :=
  if s.misses + 1 < (s.dirty.elim 0 fun d => d.size) then { s with misses := s.misses + 1 } else promote s

/-- The actions: a call, a step, a step of a loop with the choice of the next entry (`go`: the callback returns true), a return. -/
inductive Act (K V : Type) where
  | call (t : Nat) (c : Call K V)
  | step (t : Nat)
  | pick (t i : Nat) (go : Bool)
  | ret (t : Nat)

/-- One step of goroutine `t` in phase `p` of an operation (sync/map.go: `Load`, `Swap`, `LoadAndDelete`, `Range`): the state and the next phase. -/
def phase (s : St K V) (t : Nat) : Prim K (Option V) → Ph K (Option V) → Option (St K V × Ph K (Option V))
  -- the first look at `read`
  | .load k, .start =>
    match s.read.load k with
    | some e => some (s, .fin e false)
    | none => some (s, if s.amended then .wait else .out (.prev none))
  | .del k, .start =>
    match s.read.load k with
    | some e => some (s, .fin e false)
    | none => some (s, if s.amended then .wait else .out (.prev none))
  | .swap k _, .start =>
    match s.read.load k with
    | some e => some (s, .fin e false)
    | none => some (s, .wait)
  | .range, .start => some (s, if s.amended then .wait else .iter s.read.entries [])
  | _, .wait => if s.mu = none then some ({ s with mu := some t }, .locked) else none
  -- the second look at `read`, with the mutex
  | .load k, .locked =>
    match s.read.load k with
    | some e => some (s, .rel (.fin e false))
    | none =>
      if s.amended then
        match s.look k with
        | some e => some (miss s, .rel (.fin e false))
        | none => some (miss s, .rel (.out (.prev none)))
      else some (s, .rel (.out (.prev none)))
  | .del k, .locked =>
    match s.read.load k with
    | some e => some (s, .rel (.fin e false))
    | none =>
      if s.amended then
        let s' := miss { s with dirty := s.dirty.map fun d => d.delete k }
        match s.look k with
        | some e => some (s', .rel (.fin e true))
        | none => some (s', .rel (.out (.prev none)))
      else some (s, .rel (.out (.prev none)))
  | .swap k _, .locked =>
    match s.read.load k with
    | some e => some (s, .unexp e)
    | none =>
      match s.look k with
      | some e => some (s, .swapL e)
      | none =>
        if s.amended then some (s, .pub)
        else
          match s.dirty with
          | some _ => some (s, .pub)
          | none => some ({ s with dirty := some AMap.empty }, .exp s.read.entries)
  | .range, .locked => if s.amended then some (promote s, .rel (.iter (promote s).read.entries [])) else some (s, .rel (.iter s.read.entries []))
  -- `unexpungeLocked`, and the entry is put into `dirty`
  | .swap k _, .unexp e =>
    match s.heap k e with
    | .expunged => some ({ setP s k e .nil with dirty := s.dirty.map fun d => d.store k e }, .swapL e)
    | _ => some (s, .swapL e)
  -- `swapLocked`
  | .swap k w, .swapL e => some (setP s k e (.val w), .rel (.out (.prev (s.heap k e).get)))
  -- the end of the loop of `dirtyLocked`
  | .swap _ _, .exp [] => some (s, .pub)
  -- `m.read.Store(&readOnly{m: read.m, amended: true})` if need be, and `m.dirty[key] = newEntry(value)`
  | .swap k w, .pub =>
    some ({ setP s k s.fresh (.val w) with amended := true, dirty := some ((s.dirty.getD AMap.empty).store k s.fresh), fresh := s.fresh + 1 }, .rel (.out (.prev none)))
  | _, .rel next => some ({ s with mu := none }, next)
  -- `e.load`
  | .load k, .fin e _ => some (s, .out (.prev (s.heap k e).get))
  -- `e.delete`
  | .del k, .fin e _ =>
    match s.heap k e with
    | .val w => some (setP s k e .nil, .out (.prev (some w)))
    | _ => some (s, .out (.prev none))
  -- `e.trySwap`
  | .swap k w, .fin e _ =>
    match s.heap k e with
    | .expunged => some (s, .wait)
    | p => some (setP s k e (.val w), .out (.prev p.get))
  | .range, .iter [] seen => some (s, .out (.seq seen true))
  | _, _ => none

/-- One step in a loop: of `dirtyLocked` with `tryExpungeLocked`, of `Range`. The next entry is any one that was not yet visited. -/
def loop (s : St K V) (i : Nat) (go : Bool) : Ph K (Option V) → Option (St K V × Ph K (Option V))
  | .exp todo =>
    match todo[i]? with
    | some (k, e) =>
      match s.heap k e with
      | .nil => some (setP s k e .expunged, .exp (todo.eraseIdx i))
      | .expunged => some (s, .exp (todo.eraseIdx i))
      | .val _ => some ({ s with dirty := s.dirty.map fun d => d.store k e }, .exp (todo.eraseIdx i))
    | none => none
  | .iter todo seen =>
    match todo[i]? with
    | some (k, e) =>
      match (s.heap k e).get with
      | some w => some (s, if go then .iter (todo.eraseIdx i) (seen ++ [(k, w)]) else .out (.seq (seen ++ [(k, w)]) false))
      | none => some (s, .iter (todo.eraseIdx i) seen)
    | none => none
  | _ => none

/-- One action. -/
def act (s : St K V) : Act K V → Option (St K V)
  | .call t c =>
    match s.g t with
    | .idle => some { setG s t (.run s.next c .start) with next := s.next + 1, hist := s.hist ++ [.inv s.next c] }
    | _ => none
  | .step t =>
    match s.g t with
    | .run id c p => (phase s t (prim c) p).map fun x => setG x.1 t (.run id c x.2)
    | .idle => none
  | .pick t i go =>
    match s.g t with
    | .run id c p => (loop s i go p).map fun x => setG x.1 t (.run id c x.2)
    | .idle => none
  | .ret t =>
    match s.g t with
    | .run id c (.out r) => some { setG s t .idle with hist := s.hist ++ [.res id (answer c r)] }
    | _ => none

/-- An execution. -/
def exec (s : St K V) : List (Act K V) → Option (St K V)
  | [] => some s
  | a :: as => (act s a).bind fun s' => exec s' as

end Gofer.SyncMap
