/-!
# Model of the library `container/list` (pointer level)

Used by `hashmap/linkedhashmap.go`, `hashmap/limitmap.go`, `hashmap/limithashmap.go`. The code is
Go's standard library (not in /repo); the model follows it field by field: the ring of
`next`/`prev` pointers through the sentinel `root`, the owner field `list` and the length.

Pointers are natural numbers: `nil = 0`, `&l.root = 1`, elements are `≥ 2` and allocated in
increasing order (`fresh`).
-/
namespace Gofer

/-- A list and the heap of its elements (also the removed ones, which Go keeps alive while they are
referenced). -/
structure GoList (α : Type) where
  next : Nat → Nat
  prev : Nat → Nat
  /-- `e.list == l` -/
  owned : Nat → Bool
  /-- `e.Value`; `none` for addresses that are not allocated. -/
  val : Nat → Option α
  len : Nat
  fresh : Nat

namespace GoList
variable {α : Type}

/-- Pointer update. -/
def upd {β : Type} (f : Nat → β) (i : Nat) (x : β) : Nat → β := fun j => if j = i then x else f j

/-- The sentinel `&l.root`. -/
def root : Nat := 1

/-- `list.New()`. -/
def new : GoList α :=
  { next := fun i => if i = root then root else 0
    prev := fun i => if i = root then root else 0
    owned := fun _ => false
    val := fun _ => none
    len := 0
    fresh := 2 }

/-- `l.Init()`: resets the ring and the length, leaves old elements as they are. -/
def init (l : GoList α) : GoList α :=
  { l with next := upd l.next root root, prev := upd l.prev root root, len := 0 }

/-- `l.Front()`; 0 is nil. -/
def front (l : GoList α) : Nat := if l.len = 0 then 0 else l.next root

/-- `l.Back()`; 0 is nil. -/
def back (l : GoList α) : Nat := if l.len = 0 then 0 else l.prev root

/-- `e.Next()`. -/
def elemNext (l : GoList α) (e : Nat) : Nat :=
  if l.owned e ∧ l.next e ≠ root then l.next e else 0

/-- `e.Prev()`. -/
def elemPrev (l : GoList α) (e : Nat) : Nat :=
  if l.owned e ∧ l.prev e ≠ root then l.prev e else 0

/-- `l.insert(e, at)`: `e.prev = at; e.next = at.next; e.prev.next = e; e.next.prev = e; e.list = l;
l.len++`. -/
def insert (l : GoList α) (e at' : Nat) : GoList α :=
  let n := l.next at'
  let prev := upd l.prev e at'
  let next := upd l.next e n
  let next := upd next at' e
  let prev := upd prev n e
  { l with next := next, prev := prev, owned := upd l.owned e true, len := l.len + 1 }

/-- `l.PushFront(v)`: returns the new element. -/
def pushFront (l : GoList α) (v : α) : GoList α × Nat :=
  let e := l.fresh
  let l := { l with fresh := l.fresh + 1, val := upd l.val e (some v) }
  (l.insert e root, e)

/-- `l.remove(e)`: `e.prev.next = e.next; e.next.prev = e.prev; e.next = nil; e.prev = nil;
e.list = nil; l.len--`. -/
def removeElem (l : GoList α) (e : Nat) : GoList α :=
  let p := l.prev e
  let n := l.next e
  let next := upd l.next p n
  let prev := upd l.prev n p
  let next := upd next e 0
  let prev := upd prev e 0
  { l with next := next, prev := prev, owned := upd l.owned e false, len := l.len - 1 }

/-- `l.Remove(e)`: only if `e.list == l`. -/
def remove (l : GoList α) (e : Nat) : GoList α :=
  if l.owned e then l.removeElem e else l

/-- `l.move(e, at)`. -/
def move (l : GoList α) (e at' : Nat) : GoList α :=
  if e = at' then l else
  let p := l.prev e
  let n := l.next e
  let next := upd l.next p n
  let prev := upd l.prev n p
  let prev := upd prev e at'
  let n' := next at'
  let next := upd next e n'
  let next := upd next at' e
  let prev := upd prev n' e
  { l with next := next, prev := prev }

/-- `l.MoveToFront(e)`. -/
def moveToFront (l : GoList α) (e : Nat) : GoList α :=
  if l.owned e = false ∨ l.next root = e then l else l.move e root

/-- Assignment through `e.Value` (the entry the element points to is overwritten in place). -/
def setVal (l : GoList α) (e : Nat) (v : α) : GoList α := { l with val := upd l.val e (some v) }

end GoList
end Gofer
