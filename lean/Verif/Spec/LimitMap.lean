import Verif.Spec.Assoc

/-!
# Specification of a map bounded by evicting the entry whose last Put is oldest (`LimitMap`)

The state is the list of entries, last Put first.
-/
namespace Gofer.Spec.LimitMap
open Gofer.Spec.Assoc

inductive Op (K V : Type) where
  | put (k : K) (v : V)
  | get (k : K)
  | del (k : K)
  | removeMulti (ks : List K)
  | len
deriving DecidableEq

inductive Res (V : Type) where
  | unit
  | val (v : V) (ok : Bool)
  | num (n : Nat)
deriving DecidableEq

variable {K V : Type} [DecidableEq K]

/-- Put: the entry becomes the newest. A new key put into a map with more than `cap` entries first
pushes out the oldest one. -/
def put (cap : Int) (k : K) (v : V) (es : List (K × V)) : List (K × V) :=
  match find k es with
  | some _ => (k, v) :: without k es
  | none => (k, v) :: (if (es.length : Int) > cap then es.dropLast else es)

/-- One call. -/
def step (zv : V) (cap : Int) (es : List (K × V)) : Op K V → List (K × V) × Res V
  | .put k v => (put cap k v es, .val ((find k es).getD zv) (find k es).isSome)
  | .get k => (es, .val ((find k es).getD zv) (find k es).isSome)
  | .del k => (without k es, .unit)
  | .removeMulti ks => (es.filter (fun p => p.1 ∉ ks), .unit)
  | .len => (es, .num es.length)

/-- Results of a history. -/
def run (zv : V) (cap : Int) : List (K × V) → List (Op K V) → List (Res V)
  | _, [] => []
  | es, o :: os => (step zv cap es o).2 :: run zv cap (step zv cap es o).1 os

end Gofer.Spec.LimitMap
