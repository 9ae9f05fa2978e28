import Verif.Spec.Assoc

/-!
# Specification of a map split into FIFO-bounded segments (`LimitHashMap`)

Each segment is the list of its entries, newest insertion first.
-/
namespace Gofer.Spec.LimitHashMap
open Gofer.Spec.Assoc

inductive Op (K V : Type) where
  | put (k : K) (v : V)
  | get (k : K)
  | del (k : K)
  | contains (k : K)
  | clear
  | len

inductive Res (V : Type) where
  | unit
  | val (v : V) (ok : Bool)
  | ok (b : Bool)
  | num (n : Nat)
  | panic
deriving DecidableEq

variable {K V : Type} [DecidableEq K]

/-- Overwrite the value of a present key, keeping its place. -/
def setValue (k : K) (v : V) (es : List (K × V)) : List (K × V) :=
  es.map fun p => if p.1 = k then (p.1, v) else p

/-- Insert a new key in front; a segment holding `cap` entries or more first loses its oldest one. -/
def addNew (cap : Int) (k : K) (v : V) (es : List (K × V)) : List (K × V) :=
  (k, v) :: (if (es.length : Int) ≥ cap then es.dropLast else es)

/-- One call on `n` segments of capacity `cap`; `seg k` is the segment of a key. `nil v` says that `v` is
the nil value of an interface type: it is stored, but `Get` does not report it and overwriting it
panics. -/
def step (zv : V) (nil : V → Bool) (n : Nat) (cap : Int) (seg : K → Nat) (s : Nat → List (K × V)) :
    Op K V → (Nat → List (K × V)) × Res V
  | .put k v =>
    let i := seg k
    match find k (s i) with
    | some old =>
      if nil old then (s, .panic)
      else (fun j => if j = i then setValue k v (s i) else s j, .val old true)
    | none => (fun j => if j = i then addNew cap k v (s i) else s j, .val zv false)
  | .get k => (s, match find k (s (seg k)) with
      | some v => if nil v then .val zv false else .val v true
      | none => .val zv false)
  | .del k => (fun j => if j = seg k then without k (s j) else s j, .unit)
  | .contains k => (s, .ok (find k (s (seg k))).isSome)
  | .clear => (fun _ => [], .unit)
  | .len => (s, .num ((List.range n).map fun i => (s i).length).sum)

/-- Results of a history. -/
def run (zv : V) (nil : V → Bool) (n : Nat) (cap : Int) (seg : K → Nat) :
    (Nat → List (K × V)) → List (Op K V) → List (Res V)
  | _, [] => []
  | s, o :: os => (step zv nil n cap seg s o).2 :: run zv nil n cap seg (step zv nil n cap seg s o).1 os

end Gofer.Spec.LimitHashMap
