import Verif.Spec.Map
import Verif.Spec.Linear
/-!
# A key/value map that can be asked for its size
-/
namespace Gofer.Spec.MapLin
open Gofer.Spec.Map

variable {K V : Type} [DecidableEq K]

/-- Calls: those of the map, and `Len`. -/
inductive OpL (K V : Type) where
  | base (op : Op K V)
  | len

inductive ResL (V : Type) where
  | base (r : Res V)
  | num (n : Int)
deriving DecidableEq

/-- The calls that are not `Len`. -/
def bases : List (OpL K V) → List (Op K V)
  | [] => []
  | .base op :: os => op :: bases os
  | .len :: os => bases os

/-- The answer to a call after the calls `before`: that of a partial function; `Len` answers the number of keys. -/
def answer (zero : V) (nil : V → Bool) (before : List (OpL K V)) : OpL K V → ResL V → Prop
  | .base op, r => r = .base (step zero nil (final zero nil (fun _ => none) (bases before)) op).2
  | .len, r => ∃ keys : List K, keys.Nodup ∧ (∀ k, k ∈ keys ↔ (final zero nil (fun _ => none) (bases before) k).isSome = true) ∧
      r = .num keys.length

/-- All calls are answered so. -/
def ok (zero : V) (nil : V → Bool) (os : List (OpL K V)) (rs : List (ResL V)) : Prop :=
  rs.length = os.length ∧ ∀ (i : Nat) op r, os[i]? = some op → rs[i]? = some r → answer zero nil (os.take i) op r

end Gofer.Spec.MapLin
