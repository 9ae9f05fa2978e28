import Verif.Spec.Assoc

/-!
# Specification of a least-recently-used cache (`LruCache`)

The state is the list of entries, most recently used first. A key is `none` when it is Go's nil
interface. `max = 0` means no limit.
-/
namespace Gofer.Spec.Lru
open Gofer.Spec.Assoc

/-- `removeMulti` takes strings only; `K` is the type of all dynamic key values. -/
inductive Op (K V : Type) where
  | add (k : Option K) (v : V)
  | get (k : Option K)
  | remove (k : Option K)
  | removeMulti (ks : List String)

inductive Res (V : Type) where
  | unit
  | val (v : V) (ok : Bool)
deriving DecidableEq

variable {K V : Type} [DecidableEq K]

/-- Add: the entry becomes the most recent. A new key that makes the cache exceed the limit pushes out
the least recent entry. -/
def add (max : Int) (k : K) (v : V) (es : List (K × V)) : List (K × V) :=
  match find k es with
  | some _ => (k, v) :: without k es
  | none => if max ≠ 0 ∧ (es.length : Int) + 1 > max then ((k, v) :: es).dropLast else (k, v) :: es

/-- One call. `str` embeds strings in the key values, `zv` is the zero value. -/
def step (str : String → K) (zv : V) (max : Int) (es : List (K × V)) : Op K V → List (K × V) × Res V
  | .add none _ => (es, .unit)
  | .add (some k) v => (add max k v es, .unit)
  | .get none => (es, .val zv false)
  | .get (some k) =>
    match find k es with
    | some v => ((k, v) :: without k es, .val v true)
    | none => (es, .val zv false)
  | .remove none => (es, .unit)
  | .remove (some k) => (without k es, .unit)
  | .removeMulti ks => (es.filter (fun p => p.1 ∉ ks.map str), .unit)

/-- Results of a history. -/
def run (str : String → K) (zv : V) (max : Int) : List (K × V) → List (Op K V) → List (Res V)
  | _, [] => []
  | es, o :: os => (step str zv max es o).2 :: run str zv max (step str zv max es o).1 os

/-- The plain map: what an unlimited cache is. -/
def plainStep (str : String → K) (zv : V) (m : K → Option V) : Op K V → (K → Option V) × Res V
  | .add none _ => (m, .unit)
  | .add (some k) v => (fun x => if x = k then some v else m x, .unit)
  | .get none => (m, .val zv false)
  | .get (some k) => (m, .val ((m k).getD zv) (m k).isSome)
  | .remove none => (m, .unit)
  | .remove (some k) => (fun x => if x = k then none else m x, .unit)
  | .removeMulti ks => (fun x => if x ∈ ks.map str then none else m x, .unit)

/-- Results of a history on the plain map. -/
def plainRun (str : String → K) (zv : V) : (K → Option V) → List (Op K V) → List (Res V)
  | _, [] => []
  | m, o :: os => (plainStep str zv m o).2 :: plainRun str zv (plainStep str zv m o).1 os

end Gofer.Spec.Lru
