import Verif.Spec.Linear
import Verif.Model.LockedObj
/-!
# Sequential objects for the concurrent containers that have no specification with all their methods

They name the methods and results of the models and, for `Consistenthash`, the ring after a sequence of Add and Del (whose lookups C23-C28 describe).
-/
namespace Gofer.Spec.LinearRel
open Gofer.Spec.Assoc

section TreeMap
open Gofer.TreeMap (OpA ResA)
open Gofer.Spec.TreeMap (Op visit)
variable {K V : Type} [LinearOrder K]

/-- The calls that are not iterations. -/
def bases : List (OpA K V) → List (Op K V)
  | [] => []
  | .base op :: os => op :: bases os
  | _ :: os => bases os

/-- The answer to a call after the calls `before`: as a partial function answers; an iteration calls back with the entries of that moment in the order of the keys, or
in the reverse order. -/
def treeAnswer (zv : V) (before : List (OpA K V)) : OpA K V → ResA K V → Prop
  | .base op, r => r = .base (Spec.TreeMap.step zv (Spec.TreeMap.final zv (fun _ => none) (bases before)) op).2
  | .ascend f, r => ∃ l : List (K × V), l.Pairwise (fun a b => a.1 < b.1) ∧
      (∀ k v, (k, v) ∈ l ↔ Spec.TreeMap.final zv (fun _ => none) (bases before) k = some v) ∧ r = .calls (visit f l [])
  | .descend f, r => ∃ l : List (K × V), l.Pairwise (fun a b => a.1 < b.1) ∧
      (∀ k v, (k, v) ∈ l ↔ Spec.TreeMap.final zv (fun _ => none) (bases before) k = some v) ∧ r = .calls (visit f l.reverse [])

/-- All calls are answered so. -/
def okTree (zv : V) (os : List (OpA K V)) (rs : List (ResA K V)) : Prop :=
  rs.length = os.length ∧ ∀ (i : Nat) op r, os[i]? = some op → rs[i]? = some r → treeAnswer zv (os.take i) op r
end TreeMap

section Ring
open Gofer.Consistenthash (OpC ResC CH)
variable {P : Type} [LinearOrder P]

/-- The calls of Add and Del. -/
def writes : List OpC → List (Spec.Ring.Op (BitVec 64))
  | [] => []
  | .add ks :: os => .add ks :: writes os
  | .del k :: os => .del k :: writes os
  | _ :: os => writes os

/-- The answer of a ring at rest. -/
def ringAnswer (hash : List UInt8 → P) (t : CH P) : OpC → ResC
  | .add _ => .unit
  | .del _ => .unit
  | .get v => .res (Consistenthash.get hash t v)
  | .getStr v => .res (Consistenthash.getStr hash t v)
  | .next v n => .next (Consistenthash.getNextNode hash t v n)
  | .nodes => .nodes (Consistenthash.nodesOf t)

/-- Every call is answered by the ring after the Adds and Dels that came before it. -/
def okRing (hash : List UInt8 → P) (r : Nat) (os : List OpC) (rs : List ResC) : Prop :=
  rs.length = os.length ∧
    ∀ (i : Nat) op, os[i]? = some op → rs[i]? = some (ringAnswer hash (Consistenthash.exec hash r (writes (os.take i))) op)
end Ring

section Segments
open Gofer.LimitHashMap (Op1)
open Gofer.Spec.LimitHashMap (Op Res)
variable {K V : Type}

/-- One call on the segments; keys are known by their hashes. -/
def segStep (zv : V) (nil : V → Bool) (cap : Int) (hash : K → UInt64) (n : Nat) (s : Nat → List (UInt64 × V)) :
    Op1 K V → (Nat → List (UInt64 × V)) × Res V
  | .put k v => Spec.LimitHashMap.step zv nil n cap (fun h : UInt64 => h.toNat % n) s (.put (hash k) v)
  | .get k => Spec.LimitHashMap.step zv nil n cap (fun h : UInt64 => h.toNat % n) s (.get (hash k))
  | .del k => Spec.LimitHashMap.step zv nil n cap (fun h : UInt64 => h.toNat % n) s (.del (hash k))
  | .contains k => Spec.LimitHashMap.step zv nil n cap (fun h : UInt64 => h.toNat % n) s (.contains (hash k))
  | .clear1 i => (fun j => if j = i then [] else s j, .unit)
  | .len1 i => (s, .num (s i).length)

/-- Results of a history. -/
def segRun (zv : V) (nil : V → Bool) (cap : Int) (hash : K → UInt64) (n : Nat) :
    (Nat → List (UInt64 × V)) → List (Op1 K V) → List (Res V)
  | _, [] => []
  | s, o :: os => (segStep zv nil cap hash n s o).2 :: segRun zv nil cap hash n (segStep zv nil cap hash n s o).1 os
end Segments

end Gofer.Spec.LinearRel
