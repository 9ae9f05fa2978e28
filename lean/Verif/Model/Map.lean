import Verif.Model.AMap
import Verif.Spec.Map

/-!
# Model of `hashmap/map.go`: `Map` and `MapL`

The stored `any` is `Option V` (`none` is the nil interface).
-/
namespace Gofer.Map
open Gofer.Spec.Map (Op Res)

variable {K V : Type} [DecidableEq K] [GoValue V]

/-- `Map` (hashmap/map.go:78-80). -/
structure Map (K V : Type) where
  m : AMap K (Option V)

/-- `NewMap` (hashmap/map.go:83-85). -/
def Map.new : Map K V := ⟨AMap.empty⟩

/-- `Map.Put` (hashmap/map.go:87-92). -/
def Map.put (t : Map K V) (k : K) (v : V) : Map K V × (V × Bool) :=
  match t.m.swap k (toAny v) with
  | (some (some old), m') => (⟨m'⟩, (old, true))
  | (_, m') => (⟨m'⟩, (GoValue.zero, false))

/-- `Map.Get` (hashmap/map.go:94-102). -/
def Map.get (t : Map K V) (k : K) : V × Bool :=
  match t.m.load k with
  | some (some v) => (v, true)
  | some none => (GoValue.zero, true)
  | none => (GoValue.zero, false)

/-- `Map.Has` (hashmap/map.go:104-107). -/
def Map.has (t : Map K V) (k : K) : Bool := (t.m.load k).isSome

/-- `Map.Del` (hashmap/map.go:109-112). -/
def Map.del (t : Map K V) (k : K) : Map K V × Bool :=
  match t.m.loadAndDelete k with
  | (v, m') => (⟨m'⟩, v.isSome)

/-- `Map.Range` (hashmap/map.go:117-126) on a map that is not modified meanwhile. `order` is the order
in which `sync.Map.Range` happens to visit the entries; `f` is the callback, which may depend on what
it has seen so far. Returns the calls made. -/
def rangeCalls (f : List (K × V) → K → V → Bool) : List (K × Option V) → List (K × V) → List (K × V)
  | [], seen => seen
  | (k, some v) :: rest, seen =>
    if f seen k v then rangeCalls f rest (seen ++ [(k, v)]) else seen ++ [(k, v)]
  | (k, none) :: rest, seen =>
    if f seen k GoValue.zero then rangeCalls f rest (seen ++ [(k, GoValue.zero)])
    else seen ++ [(k, GoValue.zero)]

/-- `MapL` (hashmap/map.go:17-20). -/
structure MapL (K V : Type) where
  m : AMap K (Option V)
  len : Int

/-- `NewMapL` (hashmap/map.go:24-26). -/
def MapL.new : MapL K V := ⟨AMap.empty, 0⟩

/-- `MapL.Put` (hashmap/map.go:28-35), run alone. -/
def MapL.put (t : MapL K V) (k : K) (v : V) : MapL K V × (V × Bool) :=
  match t.m.swap k (toAny v) with
  | (none, m') => (⟨m', t.len + 1⟩, (GoValue.zero, false))
  | (some (some old), m') => (⟨m', t.len⟩, (old, true))
  | (some none, m') => (⟨m', t.len⟩, (GoValue.zero, false))

/-- `MapL.Get` (hashmap/map.go:37-45). -/
def MapL.get (t : MapL K V) (k : K) : V × Bool :=
  match t.m.load k with
  | some (some v) => (v, true)
  | some none => (GoValue.zero, true)
  | none => (GoValue.zero, false)

/-- `MapL.Has` (hashmap/map.go:47-50). -/
def MapL.has (t : MapL K V) (k : K) : Bool := (t.m.load k).isSome

/-- `MapL.Del` (hashmap/map.go:52-57), run alone. -/
def MapL.del (t : MapL K V) (k : K) : MapL K V × Bool :=
  match t.m.loadAndDelete k with
  | (some _, m') => (⟨m', t.len - 1⟩, true)
  | (none, m') => (⟨m', t.len⟩, false)

/-- One call on a `Map`. -/
def Map.step (t : Map K V) : Op K V → Map K V × Res V
  | .put k v => ((t.put k v).1, .val (t.put k v).2.1 (t.put k v).2.2)
  | .del k => ((t.del k).1, .ok (t.del k).2)
  | .get k => (t, .val (t.get k).1 (t.get k).2)
  | .has k => (t, .ok (t.has k))

/-- One call on a `MapL`. -/
def MapL.step (t : MapL K V) : Op K V → MapL K V × Res V
  | .put k v => ((t.put k v).1, .val (t.put k v).2.1 (t.put k v).2.2)
  | .del k => ((t.del k).1, .ok (t.del k).2)
  | .get k => (t, .val (t.get k).1 (t.get k).2)
  | .has k => (t, .ok (t.has k))

/-- Results of a history on a `Map`. -/
def Map.run : Map K V → List (Op K V) → List (Res V)
  | _, [] => []
  | t, o :: os => (t.step o).2 :: Map.run (t.step o).1 os

/-- The `Map` after a history. -/
def Map.final (t : Map K V) (os : List (Op K V)) : Map K V := os.foldl (fun t o => (t.step o).1) t

/-- Results of a history on a `MapL`. -/
def MapL.run : MapL K V → List (Op K V) → List (Res V)
  | _, [] => []
  | t, o :: os => (t.step o).2 :: MapL.run (t.step o).1 os

/-- The `MapL` after a history. -/
def MapL.final (t : MapL K V) (os : List (Op K V)) : MapL K V := os.foldl (fun t o => (t.step o).1) t

/-! ## Concurrent `MapL`

Each `Put`/`Del` is two atomic actions: the `sync.Map` operation (lines 29 / 53) and, if it changed the
number of keys, the `atomic.AddInt64` (lines 30 / 54). `n` goroutines, any number of calls each. -/

/-- State: the map, the counter and, per goroutine, the delta it still has to add (`none`: no call in
flight between the two actions). -/
structure Conc (n : Nat) (K V : Type) where
  m : AMap K (Option V)
  len : Int
  pend : Fin n → Option Int

/-- Atomic actions. -/
inductive Act (n : Nat) (K V : Type) where
  | putSwap (g : Fin n) (k : K) (v : V)
  | delLoad (g : Fin n) (k : K)
  | add (g : Fin n)

/-- One atomic action; `none` if the goroutine is not at that point. -/
def Conc.act {n : Nat} (s : Conc n K V) : Act n K V → Option (Conc n K V)
  | .putSwap g k v =>
    match s.pend g with
    | some _ => none
    | none =>
      match s.m.swap k (toAny v) with
      | (none, m') => some { s with m := m', pend := fun i => if i = g then some 1 else s.pend i }
      | (some _, m') => some { s with m := m' }
  | .delLoad g k =>
    match s.pend g with
    | some _ => none
    | none =>
      match s.m.loadAndDelete k with
      | (some _, m') => some { s with m := m', pend := fun i => if i = g then some (-1) else s.pend i }
      | (none, m') => some { s with m := m' }
  | .add g =>
    match s.pend g with
    | some d => some { s with len := s.len + d, pend := fun i => if i = g then none else s.pend i }
    | none => none

/-- Initial state. -/
def Conc.init {n : Nat} : Conc n K V := ⟨AMap.empty, 0, fun _ => none⟩

/-- Execution of a schedule. -/
def Conc.exec {n : Nat} (s : Conc n K V) : List (Act n K V) → Option (Conc n K V)
  | [] => some s
  | a :: as => (s.act a).bind fun s' => s'.exec as

end Gofer.Map
