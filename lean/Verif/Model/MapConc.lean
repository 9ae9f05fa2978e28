import Verif.Model.Map
import Verif.Spec.MapLin
/-!
# `Map` and `MapL` (hashmap/map.go) under concurrent use

Every method does one operation on the `sync.Map`, which is atomic (library); `MapL.Put` of a new key and `MapL.Del` of a key that is there go on to add to the
counter, in a second step; `MapL.Len` reads the counter. `Range` is left out.
-/
namespace Gofer.MapConc
open Gofer.Map
open Gofer.Spec.Map (Op Res)
open Gofer.Spec.MapLin (OpL ResL)
open Gofer.Spec.Linear (Ev)

/-- A goroutine: outside, before its operation on the `sync.Map`, before adding `d` to the counter, about to return. -/
inductive Pc (K V : Type) where
  | idle
  | wait (id : Nat) (op : OpL K V)
  | add (id : Nat) (op : OpL K V) (r : ResL V) (d : Int)
  | out (id : Nat) (op : OpL K V) (r : ResL V)

/-- State: the `sync.Map` and the counter, the goroutines, the number of the next call, calls and returns seen. -/
structure St (n : Nat) (K V : Type) where
  m : AMap K (Option V)
  len : Int
  pc : Fin n → Pc K V
  next : Nat
  hist : List (Ev (OpL K V) (ResL V))

variable {n : Nat} {K V : Type} [DecidableEq K] [GoValue V]

def St.init : St n K V := ⟨AMap.empty, 0, fun _ => .idle, 0, []⟩

def setPc (s : St n K V) (t : Fin n) (p : Pc K V) : St n K V := { s with pc := fun i => if i = t then p else s.pc i }

/-- Actions. -/
inductive Act (n : Nat) (K V : Type) where
  | call (t : Fin n) (op : OpL K V)
  | map (t : Fin n)
  | add (t : Fin n)
  | ret (t : Fin n)

/-- The operation on the `sync.Map`: the map, the result, and what is to be added to the counter, if anything. -/
def mapOp (m : AMap K (Option V)) (len : Int) : OpL K V → AMap K (Option V) × ResL V × Option Int
  -- Put, hashmap/map.go:28-35
  | .base (.put k v) =>
    match m.swap k (toAny v) with
    | (none, m') => (m', .base (.val GoValue.zero false), some 1)
    | (some (some old), m') => (m', .base (.val old true), none)
    | (some none, m') => (m', .base (.val GoValue.zero false), none)
  -- Get, hashmap/map.go:37-45
  | .base (.get k) =>
    match m.load k with
    | some (some v) => (m, .base (.val v true), none)
    | some none => (m, .base (.val GoValue.zero true), none)
    | none => (m, .base (.val GoValue.zero false), none)
  -- Has, hashmap/map.go:47-50
  | .base (.has k) => (m, .base (.ok (m.load k).isSome), none)
  -- Del, hashmap/map.go:52-57
  | .base (.del k) =>
    match m.loadAndDelete k with
    | (some _, m') => (m', .base (.ok true), some (-1))
    | (none, m') => (m', .base (.ok false), none)
  -- Len, hashmap/map.go:73-75
  | .len => (m, .num len, none)

/-- One action; `counts` is true for `MapL`, false for `Map` (hashmap/map.go:87-112), whose methods are the same without the counter. -/
def act (counts : Bool) (s : St n K V) : Act n K V → Option (St n K V)
  | .call t op =>
    match s.pc t with
    | .idle => some { setPc s t (.wait s.next op) with next := s.next + 1, hist := s.hist ++ [.inv s.next op] }
    | _ => none
  | .map t =>
    match s.pc t with
    | .wait id op =>
      match mapOp s.m s.len op with
      | (m, r, some d) => if counts then some { setPc s t (.add id op r d) with m := m } else some { setPc s t (.out id op r) with m := m }
      | (m, r, none) => some { setPc s t (.out id op r) with m := m }
    | _ => none
  | .add t =>
    match s.pc t with
    | .add id op r d => some { setPc s t (.out id op r) with len := s.len + d }
    | _ => none
  | .ret t =>
    match s.pc t with
    | .out id _ r => some { setPc s t .idle with hist := s.hist ++ [.res id r] }
    | _ => none

/-- An execution. -/
def exec (counts : Bool) (s : St n K V) : List (Act n K V) → Option (St n K V)
  | [] => some s
  | a :: as => (act counts s a).bind fun s' => exec counts s' as

end Gofer.MapConc
