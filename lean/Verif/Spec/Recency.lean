import Verif.Spec.Assoc

/-!
# Specification of a bounded recency-ordered map (`LinkedHashMap`)

The state is the list of entries, newest first. Keys are unique.
-/
namespace Gofer.Spec.Recency
open Gofer.Spec.Assoc

inductive Op (K V : Type) where
  | put (k : K) (v : V)
  | loadOrStore (k : K) (v : V)
  | get (k : K)
  | delete (k : K)
  | back
  | front
  | clear
  | len
  | moveToFront (k : K)
deriving DecidableEq

inductive Res (K V : Type) where
  | unit
  | val (v : V) (ok : Bool)
  | entry (k : K) (v : V) (ok : Bool)
  | num (n : Int)
deriving DecidableEq

variable {K V : Type} [DecidableEq K]

/-- Put: the entry becomes the newest. A new key that makes the map exceed the limit pushes out the
oldest entry. -/
def put (limit : Int) (k : K) (v : V) (es : List (K × V)) : List (K × V) :=
  match find k es with
  | some _ => (k, v) :: without k es
  | none => if (es.length : Int) + 1 > limit then ((k, v) :: es).dropLast else (k, v) :: es

/-- One call. `zk`, `zv` are the zero values. `LoadOrStore` behaves as `Put` and returns the previous
value. -/
def step (zk : K) (zv : V) (limit : Int) (es : List (K × V)) : Op K V → List (K × V) × Res K V
  | .put k v => (put limit k v es, .unit)
  | .loadOrStore k v => (put limit k v es, .val ((find k es).getD zv) (find k es).isSome)
  | .get k => (es, .val ((find k es).getD zv) (find k es).isSome)
  | .delete k => (without k es, .unit)
  | .back => (es, match es.getLast? with | some p => .entry p.1 p.2 true | none => .entry zk zv false)
  | .front => (es, match es.head? with | some p => .entry p.1 p.2 true | none => .entry zk zv false)
  | .clear => ([], .unit)
  | .len => (es, .num es.length)
  | .moveToFront k => ((match find k es with | some v => (k, v) :: without k es | none => es), .unit)

/-- Results of a history. -/
def run (zk : K) (zv : V) (limit : Int) : List (K × V) → List (Op K V) → List (Res K V)
  | _, [] => []
  | es, o :: os => (step zk zv limit es o).2 :: run zk zv limit (step zk zv limit es o).1 os

/-- Contents after a history. -/
def final (zk : K) (zv : V) (limit : Int) (es : List (K × V)) (os : List (Op K V)) : List (K × V) :=
  os.foldl (fun es o => (step zk zv limit es o).1) es

end Gofer.Spec.Recency
