import Verif.Spec.Pool

/-!
# Model of `pool/buffer/pool.go`, `pool/buffer/buffer.go` and of `Buffer.Free`

`sync.Pool` (library) is a bag of pointers: `Get` takes any of them or calls `New`; the runtime may drop some at
any time. Its operations are atomic. An object is a number; the heap gives its contents. Users keep pointers in
variables.
-/
namespace Gofer.Pool
open Gofer.Spec.Pool

/-- A pool's parameters: what `New` makes and the reset function, if any (pool/buffer/pool.go:14-33). -/
structure Params (α : Type) where
  fresh : α
  reset : Option (α → α)

/-- Program state: heap, bag, variables. Objects from `next` on do not exist yet. -/
structure St (α : Type) where
  next : Nat
  heap : Nat → α
  bag : List Nat
  vars : Nat → Option Nat

/-- What can happen. `get v i`: `v = pool.Get()`, taking entry `i` of the bag, or a new object if there is none. -/
inductive Act (α : Type) where
  | get (v : Nat) (i : Option Nat)
  | put (v : Nat)
  | free (v : Nat)
  | assign (v w : Nat)
  | use (v : Nat) (c : α)
  | drop (i : Nat)

/-- Assignment to a variable. -/
def upd {β : Type} (f : Nat → β) (v : Nat) (x : β) : Nat → β := fun w => if w = v then x else f w

variable {α : Type}

/-- The object and bag a `sync.Pool.Get` yields (library). -/
def take (P : Params α) (s : St α) : Option Nat → Option (Nat × St α)
  | none => some (s.next, { s with next := s.next + 1, heap := upd s.heap s.next P.fresh })
  | some i =>
    match s.bag[i]? with
    | some p => some (p, { s with bag := s.bag.eraseIdx i })
    | none => none

/-- `pool.Get` (pool/buffer/pool.go:35-43) and `v = ` it. -/
def get (P : Params α) (s : St α) (v : Nat) (i : Option Nat) : Option (St α × List (Event α)) :=
  match take P s i with
  | none => none
  | some (p, s) =>
    let heap := match P.reset with
      | some f => upd s.heap p (f (s.heap p))
      | none => s.heap
    some ({ s with heap, vars := upd s.vars v (some p) }, [.got p (heap p)])

/-- `pool.Put(&v)` (pool/buffer/pool.go:45-52). -/
def put (s : St α) (v : Nat) : St α × List (Event α) :=
  match s.vars v with
  | some p => ({ s with bag := p :: s.bag, vars := upd s.vars v none }, [.released p])
  | none => (s, [])

/-- `v.Free()` (buffer/buffer.go:89-93): the pointer set to nil by `Put` is the copy in the receiver. -/
def free (s : St α) (v : Nat) : St α × List (Event α) :=
  match s.vars v with
  | some p => ({ s with bag := p :: s.bag }, [.released p])
  | none => (s, [])

/-- One step of a program. -/
def act (P : Params α) (s : St α) : Act α → Option (St α × List (Event α))
  | .get v i => get P s v i
  | .put v => some (put s v)
  | .free v => some (free s v)
  | .assign v w => some ({ s with vars := upd s.vars v (s.vars w) }, [])
  | .use v c =>
    match s.vars v with
    | some p => some ({ s with heap := upd s.heap p c }, [])
    | none => some (s, [])
  | .drop i => if i < s.bag.length then some ({ s with bag := s.bag.eraseIdx i }, []) else none

/-- A program run and what users see. -/
def exec (P : Params α) (s : St α) : List (Act α) → Option (St α × List (Event α))
  | [] => some (s, [])
  | a :: as =>
    match act P s a with
    | none => none
    | some (s, es) =>
      match exec P s as with
      | none => none
      | some (s, es') => some (s, es ++ es')

/-- An action of a program that uses only `Get` and `Put(&v)` and does not copy pointers. -/
def Plain : Act α → Prop
  | .free _ => False
  | .assign _ _ => False
  | _ => True

/-- No object made yet. -/
def init (P : Params α) : St α := ⟨0, fun _ => P.fresh, [], fun _ => none⟩

/-- `BufPool` (buffer/buffer.go:17-20), contents being the bytes. -/
def bufPool : Params (List UInt8) := ⟨[], some fun _ => []⟩

/-! ### `BufferPool` -/

/-- `8 * (1 << i)` on int (pool/buffer/buffer.go:27). -/
def routerEntry (i : Nat) : BitVec 64 := 8#64 * (1#64 <<< i)

/-- `router` of `NewBufferPool(poolsize)` (pool/buffer/buffer.go:20-30). -/
def router (poolsize : Nat) : List (BitVec 64) := (List.range poolsize).map routerEntry

/-- The loop of `getRouter` (pool/buffer/buffer.go:47-55) from index `i`. -/
def routeFrom (len : BitVec 64) : Nat → List (BitVec 64) → Nat
  | _, [] => 0
  | i, v :: vs => if v.sle len then i else routeFrom len (i + 1) vs

/-- `getRouter` (pool/buffer/buffer.go:47-55). -/
def getRouter (poolsize : Nat) (len : BitVec 64) : Nat := routeFrom len 0 (router poolsize)

/-- `BufferPool.Get` and `Put` index `pool` with the class: `none` is the index panic (pool/buffer/buffer.go:32-45). -/
def poolIndex (poolsize : Nat) (len : BitVec 64) : Option Nat :=
  if getRouter poolsize len < poolsize then some (getRouter poolsize len) else none

end Gofer.Pool
