import Verif.Spec.Map
import Verif.Spec.Linear
import Mathlib.Data.Nat.Pairing
/-!
# A map with `Range` under concurrent use

A `Range` is not one operation on the map. What can be said of it: for every key it answers like a `Get` of that key made at some moment of the call.
-/
namespace Gofer.Spec.SyncMap
open Gofer.Spec.Map (Op Res)
open Gofer.Spec.Linear (Ev)

/-- Calls: those of the map, and `Range`. -/
inductive Call (K V : Type) where
  | base (op : Op K V)
  | range

/-- What a call returns; of a `Range`, what its callback was given, and whether it went through to the end (`false`: the callback ended it). -/
inductive Out (K V : Type) where
  | base (r : Res V)
  | seq (l : List (K × V)) (all : Bool)
deriving DecidableEq

variable {K V : Type} [DecidableEq K]

/-- A history in which each `Range` (call number `i`) is replaced by `Get`s of the keys `pick i`, which begin and end with it. Of a key the callback was given, the `Get` returns the
value; of other keys it returns nothing, if the `Range` went through to the end, and does not return if it did not. -/
def unfold (zero : V) (pick : Nat → List K) : Ev (Call K V) (Out K V) → List (Ev (Op K V) (Res V))
  | .inv i (.base op) => [.inv (Nat.pair i 0) op]
  | .inv i .range => (pick i).zipIdx.map fun p => .inv (Nat.pair i (p.2 + 1)) (.get p.1)
  | .res i (.base r) => [.res (Nat.pair i 0) r]
  | .res i (.seq l all) =>
    (pick i).zipIdx.filterMap fun p =>
      match (l.find? fun e => e.1 = p.1) with
      | some e => some (.res (Nat.pair i (p.2 + 1)) (.val e.2 true))
      | none => if all then some (.res (Nat.pair i (p.2 + 1)) (.val zero false)) else none

/-- The calls on single keys in a history. -/
def points (h : List (Ev (Call K V) (Out K V))) : List (Ev (Op K V) (Res V)) :=
  h.filterMap fun e =>
    match e with
    | .inv i (.base op) => some (.inv i op)
    | .res i (.base r) => some (.res i r)
    | _ => none

/-- A sequential map whose `Range` is one operation: the callback is given pairs of the map, and if it went through to the end, all of them. -/
def SeqOk (zero : V) (nil : V → Bool) : Spec.Map.St K V → List (Call K V) → List (Out K V) → Prop
  | _, [], [] => True
  | s, .base op :: cs, .base r :: rs => r = (Spec.Map.step zero nil s op).2 ∧ SeqOk zero nil (Spec.Map.step zero nil s op).1 cs rs
  | s, .range :: cs, .seq l all :: rs => (∀ p ∈ l, s p.1 = some p.2) ∧ (all = true → ∀ k, k ∉ l.map Prod.fst → s k = none) ∧ SeqOk zero nil s cs rs
  | _, _, _ => False

end Gofer.Spec.SyncMap
