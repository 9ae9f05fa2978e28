import Verif.Spec.RWLock
import Verif.Model.Race
import Verif.Model.RaceLinked
/-!
# Iterations of a TreeMap whose callback uses the map
-/
namespace Gofer.RWLock
open Gofer.Race (Act)

/-- An action on the map's mutex and tree. -/
abbrev A := Act Unit Gofer.Race.TreeMapR.Loc Unit

/-- A sequence of calls, or the items of an iteration. -/
inductive Part | calls | items deriving DecidableEq

/-- What a goroutine does that calls the methods of a TreeMap, also in the callbacks of the iterations; without `w` it neither puts nor deletes. -/
inductive Uses (w : Bool) : Part → List A → Prop where
  | nil : Uses w .calls []
  /-- Get (hashmap/treemap.go:47-56). -/
  | get {l : List A} (h : Uses w .calls l) : Uses w .calls (.rlock () :: .rd .tree () :: .runlock () :: l)
  /-- Put (hashmap/treemap.go:37-44). -/
  | put {l : List A} (hw : w = true) (h : Uses w .calls l) : Uses w .calls (.lock () :: .rd .tree () :: .wr .tree () :: .unlock () :: l)
  /-- Del (hashmap/treemap.go:59-63); of a key that is not there it only reads. -/
  | del {l : List A} (hw : w = true) (h : Uses w .calls l) : Uses w .calls (.lock () :: .rd .tree () :: .unlock () :: l)
  /-- Ascend or Descend (hashmap/treemap.go:66-73, 76-83). -/
  | iter {b l : List A} (hb : Uses w .items b) (h : Uses w .calls l) : Uses w .calls (.rlock () :: b ++ .runlock () :: l)
  | last : Uses w .items []
  /-- One item: the tree is read, then the callback called (hashmap/treemap.go:69-72, 79-82). -/
  | item {c b : List A} (hc : Uses w .calls c) (hb : Uses w .items b) : Uses w .items (.rd .tree () :: c ++ b)

end Gofer.RWLock
