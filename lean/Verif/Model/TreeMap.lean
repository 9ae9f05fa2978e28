import Mathlib.Order.Defs.LinearOrder
import Verif.Spec.TreeMap

/-!
# Model of `hashmap/treemap.go`

The library `google/btree` (not in /repo) is modelled as a list of items kept in increasing order; it
compares only with `Less`. Keys come from a linear order: the `cmp.Ordered` types except NaN.
Each method holds `m.mutex`, so a history of calls is a sequence.
-/
namespace Gofer.TreeMap
open Gofer.Spec.TreeMap (Op Res)
variable {K V : Type} [LinearOrder K]

/-- `treeItem` (hashmap/treemap.go:16-19). -/
structure Item (K V : Type) where
  key : K
  value : V

/-- `Less` (hashmap/treemap.go:21-23). -/
def Item.less (a b : Item K V) : Bool := a.key < b.key

/-- Library `btree.ReplaceOrInsert`: the replaced item, if any. -/
def replaceOrInsert : List (Item K V) → Item K V → List (Item K V) × Option (Item K V)
  | [], x => ([x], none)
  | y :: ys, x =>
    if x.less y then (x :: y :: ys, none)
    else if y.less x then
      let (r, o) := replaceOrInsert ys x
      (y :: r, o)
    else (x :: ys, some y)

/-- Library `btree.Get`. -/
def treeGet : List (Item K V) → Item K V → Option (Item K V)
  | [], _ => none
  | y :: ys, x => if x.less y then none else if y.less x then treeGet ys x else some y

/-- Library `btree.Delete`. -/
def treeDelete : List (Item K V) → Item K V → List (Item K V)
  | [], _ => []
  | y :: ys, x => if x.less y then y :: ys else if y.less x then y :: treeDelete ys x else ys

/-- Library `btree.Ascend` / `btree.Descend` (on the reversed list): the calls made to the iterator. -/
def iterate (f : List (K × V) → K → V → Bool) : List (Item K V) → List (K × V) → List (K × V)
  | [], seen => seen
  | y :: ys, seen =>
    if f seen y.key y.value then iterate f ys (seen ++ [(y.key, y.value)]) else seen ++ [(y.key, y.value)]

/-- `TreeMap` (hashmap/treemap.go:26-29). -/
structure TM (K V : Type) where
  tree : List (Item K V)

/-- `NewTreeMap` (hashmap/treemap.go:32-34). -/
def new : TM K V := ⟨[]⟩

/-- `Put` (hashmap/treemap.go:37-44). -/
def put (m : TM K V) (k : K) (v : V) : TM K V × Option V :=
  let (t, item) := replaceOrInsert m.tree ⟨k, v⟩
  match item with
  | some i => (⟨t⟩, some i.value)
  | none => (⟨t⟩, none)

/-- `Get` (hashmap/treemap.go:47-56); the probe carries the zero value. -/
def get (zv : V) (m : TM K V) (k : K) : Option V := (treeGet m.tree ⟨k, zv⟩).map Item.value

/-- `Del` (hashmap/treemap.go:59-63). -/
def del (zv : V) (m : TM K V) (k : K) : TM K V := ⟨treeDelete m.tree ⟨k, zv⟩⟩

/-- `Ascend` (hashmap/treemap.go:66-73): the calls made to `iter`. -/
def ascend (m : TM K V) (iter : List (K × V) → K → V → Bool) : List (K × V) := iterate iter m.tree []

/-- `Descend` (hashmap/treemap.go:76-83). -/
def descend (m : TM K V) (iter : List (K × V) → K → V → Bool) : List (K × V) := iterate iter m.tree.reverse []

/-- Go results of a (value, ok) call. -/
def resVal (zv : V) : Option V → Res V
  | some v => .val v true
  | none => .val zv false

/-- One call. -/
def step (zv : V) (m : TM K V) : Op K V → TM K V × Res V
  | .put k v => ((put m k v).1, resVal zv (put m k v).2)
  | .get k => (m, resVal zv (get zv m k))
  | .del k => (del zv m k, .unit)

/-- Results of a history. -/
def run (zv : V) : TM K V → List (Op K V) → List (Res V)
  | _, [] => []
  | m, o :: os => (step zv m o).2 :: run zv (step zv m o).1 os

/-- State after a history. -/
def final (zv : V) (m : TM K V) (os : List (Op K V)) : TM K V := os.foldl (fun m o => (step zv m o).1) m

end Gofer.TreeMap
