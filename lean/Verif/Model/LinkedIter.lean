import Verif.Model.LinkedHashMap
import Verif.Spec.Cursor

/-!
# Model of `LinkedHashMap` together with its iterators (hashmap/linkedhashmap.go)

The map of `Model/LinkedHashMap.lean` and the iterators created so far. Every action runs under
`t.mu` (`Iterator`: lines 174-184, `Next`: lines 156-172), so a use by any number of goroutines is a
sequence of actions; `Get`, which does not take the mutex, is placed where it reads.
-/
namespace Gofer.LinkedHashMap
open Gofer.Spec.Cursor (Act Out)
variable {K V : Type} [DecidableEq K]

/-- The map and the iterators that were created, in order of creation. -/
structure ItSt (K V : Type) where
  t : LHM K V
  its : List Iter

/-- One action: a call of the map, `Iterator` (hashmap/linkedhashmap.go:174-184), or `Next`
(hashmap/linkedhashmap.go:156-172) of the `i`-th iterator. -/
def itStep (zk : K) (zv : V) (s : ItSt K V) : Act K V → ItSt K V × Out K V
  | .call o => (⟨(step zk zv s.t o).1, s.its⟩, .call (step zk zv s.t o).2)
  | .iterator front => (⟨s.t, s.its ++ [iterator s.t front]⟩, .made)
  | .next i =>
    match s.its[i]? with
    | none => (s, .next none)
    | some it => (⟨s.t, s.its.set i (next s.t it).1⟩, .next (next s.t it).2)

/-- Results of a history. -/
def itRun (zk : K) (zv : V) : ItSt K V → List (Act K V) → List (Out K V)
  | _, [] => []
  | s, a :: as => (itStep zk zv s a).2 :: itRun zk zv (itStep zk zv s a).1 as

end Gofer.LinkedHashMap
