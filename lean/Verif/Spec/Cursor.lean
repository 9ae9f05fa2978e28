import Verif.Spec.Recency

/-!
# Specification of iterators over a recency list that changes

A cursor is what the iterator returns next and what follows. It names the entry to be returned by its
key while that entry stays in the map; an entry that leaves the map is kept as a last entry to return;
`clear` leaves the cursor with the old rest of the map.
-/
namespace Gofer.Spec.Cursor
open Gofer.Spec.Assoc
open Gofer.Spec.Recency (Op Res)

inductive Cur (K V : Type) where
  /-- Nothing more is returned. -/
  | stop
  /-- The entry of `k`, which is in the map, is returned next. -/
  | live (k : K)
  /-- The entry `(k, v)`, which left the map, is returned next, and then the iteration ends. -/
  | gone (k : K) (v : V)
  /-- The map was cleared: the entries `rest` of the old contents are returned. -/
  | ghost (rest : List (K × V))
deriving DecidableEq

variable {K V : Type} [DecidableEq K]

/-- The entries in the direction of the iterator: newest first or oldest first. -/
def dir (front : Bool) (es : List (K × V)) : List (K × V) := if front then es else es.reverse

/-- The entries from the one of `k` on. -/
def since (k : K) (l : List (K × V)) : List (K × V) := l.dropWhile fun p => p.1 ≠ k

/-- The cursor at the first of some entries. -/
def first : List (K × V) → Cur K V
  | [] => .stop
  | p :: _ => .live p.1

/-- A new iterator. -/
def start (front : Bool) (es : List (K × V)) : Cur K V := first (dir front es)

/-- `Next`. -/
def next (front : Bool) (es : List (K × V)) : Cur K V → Cur K V × Option (K × V)
  | .stop => (.stop, none)
  | .live k => (first (since k (dir front es)).tail, (find k es).map fun v => (k, v))
  | .gone k v => (.stop, some (k, v))
  | .ghost [] => (.ghost [], none)
  | .ghost (p :: rest) => (.ghost rest, some p)

/-- The call stores a new entry for `k` or deletes the one of `k`. -/
def replaces (k : K) : Op K V → Bool
  | .put k' _ => k' = k
  | .loadOrStore k' _ => k' = k
  | .delete k' => k' = k
  | _ => false

/-- The call is `Clear`. -/
def clears : Op K V → Bool
  | .clear => true
  | _ => false

/-- The call is `MoveToFront`. -/
def moves : Op K V → Bool
  | .moveToFront _ => true
  | _ => false

/-- What the call `o`, made when the map has the entries `es` and leaves it with `es'`, does to an
iterator. -/
def change (front : Bool) (es es' : List (K × V)) (o : Op K V) : Cur K V → Cur K V
  | .live k =>
    match find k es with
    | none => .live k
    | some v =>
      if clears o then .ghost (since k (dir front es))
      else if replaces k o then .gone k v
      else if (find k es').isSome then .live k
      else .gone k v
  | c => c

/-- A call of the map, the creation of an iterator, or `Next` of the `i`-th iterator created. -/
inductive Act (K V : Type) where
  | call (o : Op K V)
  | iterator (front : Bool)
  | next (i : Nat)
deriving DecidableEq

/-- What is returned: the result of a call, an iterator, what `Next` returns (`none` is
`(zero, zero, false)`). -/
inductive Out (K V : Type) where
  | call (r : Res K V)
  | made
  | next (r : Option (K × V))
deriving DecidableEq

/-- The map and its iterators with their directions. -/
structure St (K V : Type) where
  es : List (K × V)
  cs : List (Bool × Cur K V)

def step (zk : K) (zv : V) (limit : Int) (s : St K V) : Act K V → St K V × Out K V
  | .call o =>
    let es' := (Recency.step zk zv limit s.es o).1
    (⟨es', s.cs.map fun c => (c.1, change c.1 s.es es' o c.2)⟩, .call (Recency.step zk zv limit s.es o).2)
  | .iterator front => (⟨s.es, s.cs ++ [(front, start front s.es)]⟩, .made)
  | .next i =>
    match s.cs[i]? with
    | none => (s, .next none)
    | some c => (⟨s.es, s.cs.set i (c.1, (next c.1 s.es c.2).1)⟩, .next (next c.1 s.es c.2).2)

/-- Results of a history. -/
def run (zk : K) (zv : V) (limit : Int) : St K V → List (Act K V) → List (Out K V)
  | _, [] => []
  | s, a :: as => (step zk zv limit s a).2 :: run zk zv limit (step zk zv limit s a).1 as

/-- State after a history. -/
def final (zk : K) (zv : V) (limit : Int) (s : St K V) (as : List (Act K V)) : St K V :=
  as.foldl (fun s a => (step zk zv limit s a).1) s

/-- The entries returned by the `Next`s of a history. -/
def yielded : List (Out K V) → List (K × V)
  | [] => []
  | .next (some p) :: os => p :: yielded os
  | _ :: os => yielded os

/-- Does the action spare the entry that the only iterator returns next? A call may not store, delete
or push out that entry, nor be `Clear` or `MoveToFront`; the `Next` of the iterator may. -/
def spares (zk : K) (zv : V) (limit : Int) (s : St K V) : Act K V → Bool
  | .call o =>
    match s.cs with
    | [(_, .live k)] =>
      !clears o && !moves o && !replaces k o &&
        (find k (Recency.step zk zv limit s.es o).1).isSome
    | _ => true
  | .next i => i = 0
  | .iterator _ => false

/-- Every action of the history spares the entry returned next. -/
def calm (zk : K) (zv : V) (limit : Int) : St K V → List (Act K V) → Bool
  | _, [] => true
  | s, a :: as => spares zk zv limit s a && calm zk zv limit (step zk zv limit s a).1 as

/-- No call of the history stores or deletes the key. -/
def untouched (k : K) : List (Act K V) → Bool
  | [] => true
  | .call o :: as => !replaces k o && untouched k as
  | _ :: as => untouched k as

end Gofer.Spec.Cursor
