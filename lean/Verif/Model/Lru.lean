import Verif.Model.AMap
import Verif.Model.GoList
import Verif.Spec.Lru

/-!
# Model of `cache/lrucache.go`

The wrapped `groupcache/lru.Cache` is a library (github.com/golang/groupcache/lru/lru.go, not in
/repo): it is modelled here from its published source, on the pointer-level `container/list` model.
`MaxEntries = 0` means no limit; `OnEvicted` is nil here. Every method runs under `lc.lock`, so a
history of calls is a sequence. Keys whose dynamic type is not comparable panic in Go's map and are
not modelled; neither are NaN keys.
-/
namespace Gofer.Lru
open Gofer.Spec.Lru (Op Res)

/-- `lru.Cache` (library) inside `LruCache` (cache/lrucache.go:16-19). Values are `any`: `none` is the
nil interface. -/
structure LC (K V : Type) where
  maxEntries : Int
  ll : GoList (Option K × Option V)
  cache : AMap (Option K) Nat

variable {K V : Type} [DecidableEq K] [GoValue V]

/-- `NewLruCache` (cache/lrucache.go:21-23) and `lru.New`. -/
def new (maxEntries : Int) : LC K V := ⟨maxEntries, GoList.new, AMap.empty⟩

/-- `lru.Cache.removeElement` (library). -/
def removeElement (c : LC K V) (e : Nat) : LC K V :=
  let ll := c.ll.remove e
  match ll.val e with
  | some kv => { c with ll := ll, cache := c.cache.delete kv.1 }
  | none => { c with ll := ll }

/-- `lru.Cache.RemoveOldest` (library). -/
def removeOldest (c : LC K V) : LC K V :=
  let ele := c.ll.back
  if ele ≠ 0 then removeElement c ele else c

/-- `lru.Cache.Add` (library). -/
def lruAdd (c : LC K V) (key : Option K) (value : Option V) : LC K V :=
  match c.cache.load key with
  | some ee =>
    let ll := c.ll.moveToFront ee
    match ll.val ee with
    | some (k', _) => { c with ll := ll.setVal ee (k', value) }
    | none => { c with ll := ll }
  | none =>
    let (ll, ele) := c.ll.pushFront (key, value)
    let c := { c with ll := ll, cache := c.cache.store key ele }
    if c.maxEntries ≠ 0 ∧ (c.ll.len : Int) > c.maxEntries then removeOldest c else c

/-- `lru.Cache.Get` (library): value and hit. -/
def lruGet (c : LC K V) (key : Option K) : LC K V × Option (Option V) :=
  match c.cache.load key with
  | some ele => ({ c with ll := c.ll.moveToFront ele }, ((c.ll.moveToFront ele).val ele).map Prod.snd)
  | none => (c, none)

/-- `lru.Cache.Remove` (library). -/
def lruRemove (c : LC K V) (key : Option K) : LC K V :=
  match c.cache.load key with
  | some ele => removeElement c ele
  | none => c

/-- `Get` (cache/lrucache.go:26-36). -/
def get (c : LC K V) (key : Option K) : LC K V × (V × Bool) :=
  match lruGet c key with
  | (c, some (some v)) => (c, (v, true))
  | (c, some none) => (c, (GoValue.zero, true))
  | (c, none) => (c, (GoValue.zero, false))

/-- `Remove` (cache/lrucache.go:39-43). -/
def remove (c : LC K V) (key : Option K) : LC K V := lruRemove c key

/-- `RemoveMulti` (cache/lrucache.go:46-53); `str` is the conversion of a string to `any`. -/
def removeMulti (str : String → K) (c : LC K V) (keys : List String) : LC K V :=
  keys.foldl (fun c k => lruRemove c (some (str k))) c

/-- `Add` (cache/lrucache.go:56-63). -/
def add (c : LC K V) (key : Option K) (value : V) : LC K V :=
  match key with
  | none => c
  | some k => lruAdd c (some k) (toAny value)

/-- One call. -/
def step (str : String → K) (c : LC K V) : Op K V → LC K V × Res V
  | .add k v => (add c k v, .unit)
  | .get k => ((get c k).1, .val (get c k).2.1 (get c k).2.2)
  | .remove k => (remove c k, .unit)
  | .removeMulti ks => (removeMulti str c ks, .unit)

/-- Results of a history. -/
def run (str : String → K) : LC K V → List (Op K V) → List (Res V)
  | _, [] => []
  | c, o :: os => (step str c o).2 :: run str (step str c o).1 os

/-- State after a history. -/
def final (str : String → K) (c : LC K V) (os : List (Op K V)) : LC K V :=
  os.foldl (fun c o => (step str c o).1) c

end Gofer.Lru
