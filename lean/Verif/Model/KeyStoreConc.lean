import Verif.Model.KeyStore
import Verif.Model.Locked

/-!
# The credential store used by several goroutines

`storeAdmin` (keystore/keystore.go) as an object under its mutex, in steps: the map is changed, then the file is truncated, then it
is written. Other goroutines and other readers of the file run between the steps. `Load` is done before. The mutex of `_keyStore`
(keystore/bin.go:45, 58) is only taken by a goroutine that holds that of `storeAdmin`, so it is left out.
-/
namespace Gofer.KeyStoreConc
open Gofer.KeyBean Gofer.KeyStore
open Gofer.Spec.KeyBean (User)
open Gofer.Spec.KeyStore (Op Res Kind)
open Gofer.Spec.Codec (Codec)

/-- A call with the iteration orders Go happens to use in it. -/
abbrev Call := Op × (KB → Orders)

/-- Where a method is. -/
inductive Loc where
  | begin
  | truncate
  | write

/-- The change of the map (keystore/keystore.go:41, 48-49 and the like); `none`: the method has nothing to save, with its result. -/
def change (digest : Bytes → Bytes) (pick : KB → Orders) (kb : KB) : Op → KB ⊕ Res
  | .put k name pwd t =>
    match mapOf kb k with
    | none => .inr .panic
    | some m => .inl (setMap kb k (m.store name (some ⟨name, md5Str digest pwd, t⟩)))
  | .del k name =>
    match mapOf kb k with
    | none => .inr .done
    | some m => if (m.load name).isSome then .inl (setMap kb k (m.delete name)) else .inr .done
  | .get k name =>
    match loadOf (mapOf kb k) name with
    | none => .inr (.user none)
    | some none => .inr .nilUser
    | some (some u) => .inr (.user (some u))
  | .list k =>
    match mapOf kb k with
    | none => .inr (.names [])
    | some _ => .inr (.names ((orderOf (pick kb) k).map Prod.fst))
  | .putOther key value =>
    match kb.other with
    | none => .inr .panic
    | some m => .inl { kb with other := some (m.store key value) }
  | .delOther key =>
    match kb.other with
    | none => .inr .done
    | some m => if (m.load key).isSome then .inl { kb with other := some (m.delete key) } else .inr .done
  | .getOther key => .inr (.value (loadOf kb.other key))

/-- One step of a method (keystore/keystore.go:38-158): the map; `Seek` and `Truncate` (keystore/bin.go:47-48); `Write`
(keystore/bin.go:49-53). -/
def stepConc (c : Codec) (digest : Bytes → Bytes) (op : Call) : Loc → St → St × (Loc ⊕ Res)
  | .begin, s =>
    match change digest op.2 s.kb op.1 with
    | .inl kb => ({ s with kb := kb }, .inl .truncate)
    | .inr r => (s, .inr r)
  | .truncate, s => ({ s with file := [] }, .inl .write)
  | .write, s => ({ s with file := KeyStore.write c (tEncode s.kb (op.2 s.kb)) }, .inr .done)

/-- `storeAdmin` under `mux`. -/
def obj (c : Codec) (digest : Bytes → Bytes) : Locked.Obj Unit St Call Res Loc := ⟨fun _ => (), fun _ => false, fun _ => .begin, stepConc c digest⟩

end Gofer.KeyStoreConc
