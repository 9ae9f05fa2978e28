import Verif.Model.AMap
import Verif.Model.GoList
import Verif.Spec.LimitMap

/-!
# Model of `hashmap/limitmap.go`

Every method runs under `mc.lock`, so a history of calls is a sequence.
-/
namespace Gofer.LimitMap
open Gofer.Spec.LimitMap (Op Res)

/-- `LimitMap` (hashmap/limitmap.go:20-25). -/
structure LM (K V : Type) where
  cache : AMap K Nat
  order : GoList (K × V)
  capacity : Int

variable {K V : Type} [DecidableEq K]

/-- `NewLimitMap` (hashmap/limitmap.go:28-34). -/
def new (capacity : Int) : LM K V := ⟨AMap.empty, GoList.new, capacity⟩

/-- `Get` (hashmap/limitmap.go:37-44). -/
def get (t : LM K V) (k : K) : Option V :=
  match t.cache.load k with
  | some e => (t.order.val e).map Prod.snd
  | none => none

/-- `Put` (hashmap/limitmap.go:47-67); the entry pointed to by the element is overwritten in place. -/
def put (t : LM K V) (k : K) (v : V) : LM K V × Option V :=
  match t.cache.load k with
  | some e =>
    match t.order.val e with
    | some (k', prev) => ({ t with order := (t.order.setVal e (k', v)).moveToFront e }, some prev)
    | none => (t, none)
  | none =>
    let t :=
      if (t.cache.size : Int) > t.capacity then
        let oldest := t.order.back
        if oldest ≠ 0 then
          let order := t.order.remove oldest
          match order.val oldest with
          | some e => { t with order := order, cache := t.cache.delete e.1 }
          | none => { t with order := order }
        else t
      else t
    let (order, elem) := t.order.pushFront (k, v)
    ({ t with order := order, cache := t.cache.store k elem }, none)

/-- `Del` (hashmap/limitmap.go:70-78). -/
def del (t : LM K V) (k : K) : LM K V :=
  match t.cache.load k with
  | some e => { t with order := t.order.remove e, cache := t.cache.delete k }
  | none => t

/-- `RemoveMulti` (hashmap/limitmap.go:81-91): the loop body is that of `Del`. -/
def removeMulti (t : LM K V) (ks : List K) : LM K V := ks.foldl del t

/-- `Len` (hashmap/limitmap.go:94-98). -/
def len (t : LM K V) : Nat := t.cache.size

/-- Go results of a (value, ok) call. -/
def resVal (zv : V) : Option V → Res V
  | some v => .val v true
  | none => .val zv false

/-- One call. -/
def step (zv : V) (t : LM K V) : Op K V → LM K V × Res V
  | .put k v => ((put t k v).1, resVal zv (put t k v).2)
  | .get k => (t, resVal zv (get t k))
  | .del k => (del t k, .unit)
  | .removeMulti ks => (removeMulti t ks, .unit)
  | .len => (t, .num (len t))

/-- Results of a history. -/
def run (zv : V) : LM K V → List (Op K V) → List (Res V)
  | _, [] => []
  | t, o :: os => (step zv t o).2 :: run zv (step zv t o).1 os

/-- State after a history. -/
def final (zv : V) (t : LM K V) (os : List (Op K V)) : LM K V := os.foldl (fun t o => (step zv t o).1) t

end Gofer.LimitMap
