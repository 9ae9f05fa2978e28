import Verif.Model.TreeMap

/-!
# Model of the library `google/btree` v1.1.3 as `hashmap/treemap.go` uses it

The library is not in /repo; the model follows its functions `find`, `split`, `maybeSplitChild`, `insert`,
`get`, `remove`, `growChildAndRemove`, `iterate`, `ReplaceOrInsert`, `Delete` statement by statement, and
`sort.Search` of the Go library. Left out: copy-on-write (`TreeMap` never clones), the free list (it only
recycles memory), `removeMin` and bounded iterations (`TreeMap` does not use them). Slices are lists. `none`
is a panic (index out of range). A node of height `h + 1` has children of height `h`: in the library too
nodes are made only by splitting and by a new root over the old one, so children have the same height.
-/
namespace Gofer.BTree
variable {T : Type}

/-- `sort.Search(n, f)` from `i`, `j`; the fuel is the length of the range. -/
def search (f : Nat → Bool) : Nat → Nat → Nat → Nat
  | 0, i, _ => i
  | n + 1, i, j =>
    if i < j then
      let h := (i + j) / 2
      if f h then search f n i h else search f n (h + 1) j
    else i

/-- `less(item, s[i])`, the condition of the search (never called out of range). -/
def above (less : T → T → Bool) (s : List T) (x : T) (i : Nat) : Bool :=
  match s[i]? with
  | some y => less x y
  | none => true

/-- `!less(s[i], item)`. -/
def notBelow (less : T → T → Bool) (s : List T) (x : T) (i : Nat) : Bool :=
  match s[i]? with
  | some y => !less y x
  | none => false

/-- `items.find`: where the item is or should go. -/
def find (less : T → T → Bool) (s : List T) (x : T) : Nat × Bool :=
  let i := search (above less s x) s.length 0 s.length
  if 0 < i ∧ notBelow less s x (i - 1) = true then (i - 1, true) else (i, false)

/-- `items.insertAt`, `children.insertAt`. -/
def insertAt {α : Type} (s : List α) (i : Nat) (x : α) : List α := s.take i ++ x :: s.drop i

/-- A node: a leaf has items; an inner node has items and children. -/
def Node (T : Type) : Nat → Type
  | 0 => List T
  | h + 1 => List T × List (Node T h)

/-- `n.items`. -/
def items : (h : Nat) → Node T h → List T
  | 0, n => n
  | _ + 1, n => n.1

/-- `n.split(i)`: the node, the item in the middle, the new node. -/
def split : (h : Nat) → Node T h → Nat → Option (Node T h × T × Node T h)
  | 0, n, i =>
    let its : List T := n
    its[i]?.map fun m => (its.take i, m, its.drop (i + 1))
  | _ + 1, (its, cs), i => its[i]?.map fun m => ((its.take i, cs.take (i + 1)), m, (its.drop (i + 1), cs.drop (i + 1)))

/-- `n.insert(item, maxItems)` (with `maybeSplitChild` inlined): the node and the item replaced. -/
def insert (less : T → T → Bool) (maxItems : Nat) : (h : Nat) → Node T h → T → Option (Node T h × Option T)
  | 0, n, x =>
    let its : List T := n
    let (i, found) := find less its x
    if found then its[i]?.map fun out => (its.set i x, some out)
    else some (insertAt its i x, none)
  | h + 1, (its, cs), x =>
    let (i, found) := find less its x
    if found then its[i]?.map fun out => ((its.set i x, cs), some out)
    else
      match cs[i]? with
      | none => none
      | some c =>
        if (items h c).length < maxItems then
          (insert less maxItems h c x).map fun r => ((its, cs.set i r.1), r.2)
        else
          match split h c (maxItems / 2) with
          | none => none
          | some (a, m, b) =>
            let its := insertAt its i m
            let cs := insertAt (cs.set i a) (i + 1) b
            if less x m then (insert less maxItems h a x).map fun r => ((its, cs.set i r.1), r.2)
            else if less m x then (insert less maxItems h b x).map fun r => ((its, cs.set (i + 1) r.1), r.2)
            else some ((its.set i x, cs), some m)

/-- `n.get(key)`. -/
def nodeGet (less : T → T → Bool) : (h : Nat) → Node T h → T → Option (Option T)
  | 0, n, x =>
    let its : List T := n
    let (i, found) := find less its x
    if found then its[i]?.map some else some none
  | h + 1, (its, cs), x =>
    let (i, found) := find less its x
    if found then its[i]?.map some
    else
      match cs[i]? with
      | none => none
      | some c => nodeGet less h c x

/-- Steal from the left child `l` for the child `c`, with `sep` between them: `l`, the new separator, `c`. -/
def stealLeft : (h : Nat) → Node T h → T → Node T h → Option (Node T h × T × Node T h)
  | 0, l, sep, c => (List.getLast? (α := T) l).map fun st => (List.dropLast (α := T) l, st, List.cons (α := T) sep c)
  | _ + 1, (li, lc), sep, (ci, cc) =>
    match li.getLast?, lc.getLast? with
    | some st, some k => some ((li.dropLast, lc.dropLast), st, (sep :: ci, k :: cc))
    | some st, none => some ((li.dropLast, lc), st, (sep :: ci, cc))
    | none, _ => none

/-- Steal from the right child `r` for the child `c`, with `sep` between them: `c`, the new separator, `r`. -/
def stealRight : (h : Nat) → Node T h → T → Node T h → Option (Node T h × T × Node T h)
  | 0, c, sep, r => (List.head? (α := T) r).map fun st => (List.append (α := T) c [sep], st, List.tail (α := T) r)
  | _ + 1, (ci, cc), sep, (ri, rc) =>
    match ri.head?, rc.head? with
    | some st, some k => some ((ci ++ [sep], cc ++ [k]), st, (ri.tail, rc.tail))
    | some st, none => some ((ci ++ [sep], cc), st, (ri.tail, rc))
    | none, _ => none

/-- Merge the child `c`, the separator and the child `r`. -/
def merge : (h : Nat) → Node T h → T → Node T h → Node T h
  | 0, c, sep, r => List.append (α := T) c (List.cons (α := T) sep r)
  | _ + 1, (ci, cc), sep, (ri, rc) => (ci ++ sep :: ri, cc ++ rc)

/-- Has child `j` more than `minItems` items? -/
def rich {h : Nat} (minItems : Nat) (cs : List (Node T h)) (j : Nat) : Bool :=
  match cs[j]? with
  | some c => minItems < (items h c).length
  | none => false

/-- The first part of `n.growChildAndRemove(i, …)`: child `i` gets an item. -/
def grow {h : Nat} (minItems : Nat) (its : List T) (cs : List (Node T h)) (i : Nat) :
    Option (List T × List (Node T h)) :=
  if 0 < i ∧ rich minItems cs (i - 1) = true then
    match cs[i - 1]?, its[i - 1]?, cs[i]? with
    | some l, some sep, some c =>
      (stealLeft h l sep c).map fun r => (its.set (i - 1) r.2.1, (cs.set (i - 1) r.1).set i r.2.2)
    | _, _, _ => none
  else if i < its.length ∧ rich minItems cs (i + 1) = true then
    match cs[i]?, its[i]?, cs[i + 1]? with
    | some c, some sep, some r =>
      (stealRight h c sep r).map fun q => (its.set i q.2.1, (cs.set i q.1).set (i + 1) q.2.2)
    | _, _, _ => none
  else
    let i := if its.length ≤ i then i - 1 else i
    match cs[i]?, its[i]?, cs[i + 1]? with
    | some c, some sep, some r => some (its.eraseIdx i, (cs.set i (merge h c sep r)).eraseIdx (i + 1))
    | _, _, _ => none

/-- Where `n.remove` goes to: the last child (`removeMax`) or the place of the item. -/
def target (less : T → T → Bool) (its : List T) : Option T → Nat × Bool
  | none => (its.length, false)
  | some x => find less its x

/-- `n.remove` of an inner node; `typ` is the item (`removeItem`) or `none` (`removeMax`); `rec` is `remove`
of the children. The library calls itself again after `growChildAndRemove`; the fuel bounds how often. One
call more than once for each item is enough for any `less`: a child that took an item is large enough, and a
merge leaves one item less. -/
def removeIn (less : T → T → Bool) (minItems : Nat) {h : Nat}
    (rec : Node T h → Option T → Option (Node T h × Option T)) :
    Nat → List T × List (Node T h) → Option T → Option ((List T × List (Node T h)) × Option T)
  | 0, _, _ => none
  | fuel + 1, (its, cs), typ =>
    let (i, found) := target less its typ
    match cs[i]? with
    | none => none
    | some c =>
      if (items h c).length ≤ minItems then
        match grow minItems its cs i with
        | none => none
        | some n => removeIn less minItems rec fuel n typ
      else if found then
        match its[i]?, rec c none with
        | some out, some (c', some m) => some ((its.set i m, cs.set i c'), some out)
        | _, _ => none
      else (rec c typ).map fun r => ((its, cs.set i r.1), r.2)

/-- `n.remove(item, minItems, typ)`: the node and the item removed. -/
def remove (less : T → T → Bool) (minItems : Nat) : (h : Nat) → Node T h → Option T → Option (Node T h × Option T)
  | 0, n, typ =>
    let its : List T := n
    match typ with
    | none => its.getLast?.map fun out => (its.dropLast, some out)
    | some x =>
      let (i, found) := find less its x
      if found then its[i]?.map fun out => (its.eraseIdx i, some out) else some (its, none)
  | h + 1, n, typ => removeIn less minItems (remove less minItems h) (n.1.length + 2) n typ

/-- `BTree`. -/
structure BT (T : Type) where
  degree : Nat
  root : Option ((h : Nat) × Node T h)
  length : Int

/-- `btree.New(degree)`: panics for a degree below 2. -/
def new (degree : Int) : Option (BT T) := if degree ≤ 1 then none else some ⟨degree.toNat, none, 0⟩

/-- `t.maxItems()`, `t.minItems()`. -/
def BT.maxItems (t : BT T) : Nat := t.degree * 2 - 1
def BT.minItems (t : BT T) : Nat := t.degree - 1

/-- The root that `ReplaceOrInsert` inserts into: a full root is split under a new one. -/
def room (maxItems h : Nat) (n : Node T h) : Option ((h : Nat) × Node T h) :=
  if maxItems ≤ (items h n).length then
    (split h n (maxItems / 2)).map fun r => ⟨h + 1, ([r.2.1], [r.1, r.2.2])⟩
  else some ⟨h, n⟩

/-- `t.ReplaceOrInsert(item)`. -/
def replaceOrInsert (less : T → T → Bool) (t : BT T) (x : T) : Option (BT T × Option T) :=
  match t.root with
  | none => some ({ t with root := some ⟨0, ([x] : List T)⟩, length := t.length + 1 }, none)
  | some ⟨h, n⟩ =>
    (room t.maxItems h n).bind fun q =>
      (insert less t.maxItems q.1 q.2 x).map fun r =>
        ({ t with root := some ⟨q.1, r.1⟩, length := if r.2.isSome then t.length else t.length + 1 }, r.2)

/-- `t.Get(key)`. -/
def get (less : T → T → Bool) (t : BT T) (x : T) : Option (Option T) :=
  match t.root with
  | none => some none
  | some ⟨h, n⟩ => nodeGet less h n x

/-- The root after a removal: an empty root is replaced by its first child. -/
def shrink : (h : Nat) → Node T h → Option ((h : Nat) × Node T h)
  | 0, n => some ⟨0, n⟩
  | h + 1, (its, cs) =>
    if its.length = 0 ∧ 0 < cs.length then cs[0]?.map fun c => ⟨h, c⟩ else some ⟨h + 1, (its, cs)⟩

/-- `t.Delete(item)` (`deleteItem` with `removeItem`). -/
def delete (less : T → T → Bool) (t : BT T) (x : T) : Option (BT T × Option T) :=
  match t.root with
  | none => some (t, none)
  | some ⟨h, n⟩ =>
    if (items h n).length = 0 then some (t, none)
    else
      match remove less t.minItems h n (some x) with
      | none => none
      | some (n', out) =>
        (shrink h n').map fun r => ({ t with root := some r, length := if out.isSome then t.length - 1 else t.length }, out)

/-- The calls made to a callback by `iterate` over items and the children before them (`inner` iterates a
child): the calls, and whether to go on. -/
def iterList {α C : Type} (inner : C → List α → List α × Bool) (f : List α → T → Bool) (out : T → α) :
    List T → List C → List α → List α × Bool
  | [], [], seen => (seen, true)
  | [], c :: _, seen => inner c seen
  | x :: its, [], seen =>
    if f seen x then iterList inner f out its [] (seen ++ [out x]) else (seen ++ [out x], false)
  | x :: its, c :: cs, seen =>
    match inner c seen with
    | (seen, false) => (seen, false)
    | (seen, true) =>
      if f seen x then iterList inner f out its cs (seen ++ [out x]) else (seen ++ [out x], false)

/-- `n.iterate(ascend, …)` without bounds. -/
def ascendNode {α : Type} (f : List α → T → Bool) (out : T → α) : (h : Nat) → Node T h → List α → List α × Bool
  | 0, n, seen => iterList (C := Unit) (fun _ s => (s, true)) f out n [] seen
  | h + 1, (its, cs), seen => iterList (ascendNode f out h) f out its cs seen

/-- `n.iterate(descend, …)` without bounds: the items and children from the last to the first. -/
def descendNode {α : Type} (f : List α → T → Bool) (out : T → α) : (h : Nat) → Node T h → List α → List α × Bool
  | 0, n, seen => iterList (C := Unit) (fun _ s => (s, true)) f out (List.reverse (α := T) n) [] seen
  | h + 1, (its, cs), seen => iterList (descendNode f out h) f out its.reverse cs.reverse seen

/-- `t.Ascend(iterator)`. -/
def ascend {α : Type} (f : List α → T → Bool) (out : T → α) (t : BT T) : List α :=
  match t.root with
  | none => []
  | some ⟨h, n⟩ => (ascendNode f out h n []).1

/-- `t.Descend(iterator)`. -/
def descend {α : Type} (f : List α → T → Bool) (out : T → α) (t : BT T) : List α :=
  match t.root with
  | none => []
  | some ⟨h, n⟩ => (descendNode f out h n []).1

end Gofer.BTree

/-! # `hashmap/treemap.go` over that library -/
namespace Gofer.BTreeMap
open Gofer.TreeMap (Item)
open Gofer.Spec.TreeMap (Op Res)
variable {K V : Type}

/-- `Less` (hashmap/treemap.go:21-23), for any `<` of the keys. -/
def less (lt : K → K → Bool) (a b : Item K V) : Bool := lt a.key b.key

/-- `Put` (hashmap/treemap.go:37-44); `none` is a panic, otherwise the previous value. -/
def put (lt : K → K → Bool) (m : BTree.BT (Item K V)) (k : K) (v : V) : Option (BTree.BT (Item K V) × Option V) :=
  (BTree.replaceOrInsert (less lt) m ⟨k, v⟩).map fun r => (r.1, r.2.map Item.value)

/-- `Get` (hashmap/treemap.go:47-56). -/
def get (lt : K → K → Bool) (zv : V) (m : BTree.BT (Item K V)) (k : K) : Option (Option V) :=
  (BTree.get (less lt) m ⟨k, zv⟩).map fun r => r.map Item.value

/-- `Del` (hashmap/treemap.go:59-63). -/
def del (lt : K → K → Bool) (zv : V) (m : BTree.BT (Item K V)) (k : K) : Option (BTree.BT (Item K V)) :=
  (BTree.delete (less lt) m ⟨k, zv⟩).map fun r => r.1

/-- `Ascend` (hashmap/treemap.go:66-73): the calls made to `iter`, which may depend on the calls before. -/
def ascend (m : BTree.BT (Item K V)) (iter : List (K × V) → K → V → Bool) : List (K × V) :=
  BTree.ascend (fun seen i => iter seen i.key i.value) (fun i => (i.key, i.value)) m

/-- `Descend` (hashmap/treemap.go:76-83). -/
def descend (m : BTree.BT (Item K V)) (iter : List (K × V) → K → V → Bool) : List (K × V) :=
  BTree.descend (fun seen i => iter seen i.key i.value) (fun i => (i.key, i.value)) m

/-- One call; `none` is a panic. -/
def step (lt : K → K → Bool) (zv : V) (m : BTree.BT (Item K V)) : Op K V → Option (BTree.BT (Item K V) × Res V)
  | .put k v => (put lt m k v).map fun r => (r.1, TreeMap.resVal zv r.2)
  | .get k => (get lt zv m k).map fun r => (m, TreeMap.resVal zv r)
  | .del k => (del lt zv m k).map fun r => (r, .unit)

/-- Results and state of a history on a map; `none` if a call panics. -/
def run (lt : K → K → Bool) (zv : V) : BTree.BT (Item K V) → List (Op K V) → Option (BTree.BT (Item K V) × List (Res V))
  | m, [] => some (m, [])
  | m, o :: os =>
    match step lt zv m o with
    | none => none
    | some (m, r) => (run lt zv m os).map fun q => (q.1, r :: q.2)

/-- `NewTreeMap(degree)` (hashmap/treemap.go:32-34) and a history on it; `none` is a panic. -/
def newRun (lt : K → K → Bool) (zv : V) (degree : Int) (os : List (Op K V)) : Option (BTree.BT (Item K V) × List (Res V)) :=
  match (BTree.new degree : Option (BTree.BT (Item K V))) with
  | none => none
  | some m => run lt zv m os

end Gofer.BTreeMap
