import Verif.Model.KeyStore
/-!
# The records of the credential store as pointers

The maps of the bean hold pointers to records (keystore/store.go:222-226); `GetAdmin`, `GetClient` and `GetMq` return the pointer itself
(keystore/keystore.go:54-59, 87-92, 120-125), so the caller can read and write the record at any time, without the mutex. `Put` makes a new record
(keystore/keystore.go:41). Here the maps are loaded (none is nil); the file is what a store that loads it would find, that is, a compressor as in `Faithful` (C182) is assumed;
the map of strings is left out.
-/
namespace Gofer.KeyStoreHeap
open Gofer.Spec.KeyBean (User)
open Gofer.Spec.KeyStore (Kind)

abbrev Bytes := List UInt8

/-- Records by address, the maps of pointers, what is in the file. -/
structure Heap where
  recs : List User
  maps : Kind → AMap Bytes Nat
  disk : Kind → Bytes → Option User

/-- After `Load` of an empty file (keystore/keystore.go:33-35). -/
def Heap.init : Heap := ⟨[], fun _ => AMap.empty, fun _ _ => none⟩

/-- Calls, and `poke`, an assignment `*r = u` by a caller who was given the pointer. -/
inductive Act where
  | put (k : Kind) (name pwd : Bytes) (type : UInt8)
  | del (k : Kind) (name : Bytes)
  | get (k : Kind) (name : Bytes)
  | poke (a : Nat) (u : User)

/-- The record of a name. -/
def view (h : Heap) (k : Kind) (n : Bytes) : Option User :=
  match (h.maps k).load n with
  | none => none
  | some a => h.recs[a]?

/-- `KeyStore.Write(util.TEncode(this.kb))` (keystore/keystore.go:42). -/
def save (h : Heap) : Heap := { h with disk := view h }

/-- Assignment to a map. -/
def setMap (h : Heap) (k : Kind) (x : AMap Bytes Nat) : Heap := { h with maps := fun k' => if k' = k then x else h.maps k' }

/-- A step; a `get` returns the pointer. -/
def step (digest : Bytes → Bytes) (h : Heap) : Act → Option Nat × Heap
  -- PutAdmin, PutClient, PutMq, keystore/keystore.go:38-43, 71-76, 104-109
  | .put k name pwd t =>
    let h' := { h with recs := h.recs ++ [⟨name, KeyStore.md5Str digest pwd, t⟩] }
    (none, save (setMap h' k ((h.maps k).store name h.recs.length)))
  -- DelAdmin, DelClient, DelMq, keystore/keystore.go:45-52, 78-85, 111-118
  | .del k name =>
    if ((h.maps k).load name).isSome then (none, save (setMap h k ((h.maps k).delete name))) else (none, h)
  -- GetAdmin, GetClient, GetMq, keystore/keystore.go:54-59, 87-92, 120-125
  | .get k name => ((h.maps k).load name, h)
  -- the caller
  | .poke a u => (none, { h with recs := h.recs.set a u })

/-- States after a list of steps. -/
def run (digest : Bytes → Bytes) : Heap → List Act → Heap
  | h, [] => h
  | h, a :: as => run digest (step digest h a).2 as

end Gofer.KeyStoreHeap
