import Verif.Model.KeyStore
/-!
# Several `storeAdmin`s over the one key file

`KeyStore` (keystore/bin.go:21) is one variable of the package, so all `storeAdmin`s of a process share its file; each has its own bean and its own mutex
(keystore/keystore.go:16-23). A call holds the mutex of its store until it returns; `Read` and `Write` of the file are each done under the mutex of the file
(keystore/bin.go:44-71) and so in one step. Between the change of the bean and the write of the file the other stores run.
-/
namespace Gofer.KeyStoreMany
open Gofer.KeyBean Gofer.KeyStore
open Gofer.Spec.KeyStore (Op Res)
open Gofer.Spec.Codec (Codec)

/-- The beans (`none`: nil, before `Load`), what a call inside is about to write, and the file. -/
structure World (m : Nat) where
  kb : Fin m → Option KB
  pend : Fin m → Option Bytes
  file : Bytes

/-- Steps. `load i` is `Load` of store `i`; `call i op pick` is a method up to the write of the file, `pick` the iteration orders Go happens to use; `write i` is the write of
the file and the return. -/
inductive Act (m : Nat) where
  | load (i : Fin m)
  | call (i : Fin m) (op : Op) (pick : KB → Orders)
  | write (i : Fin m)

/-- Assignment. -/
def upd {m : Nat} {α : Type} (f : Fin m → α) (i : Fin m) (x : α) : Fin m → α := fun j => if j = i then x else f j

/-- What a method does to the bean, and the bytes it then writes, if any (keystore/keystore.go:38-158). The nil bean panics (keystore/keystore.go:41). -/
def body (digest : Bytes → Bytes) (pick : KB → Orders) : Option KB → Op → Res × Option KB × Option Bytes
  | none, _ => (.panic, none, none)
  | some kb, op =>
    match op with
    | .put k name pwd t =>
      match mapOf kb k with
      | none => (.panic, some kb, none)
      | some m =>
        let kb' := setMap kb k (m.store name (some ⟨name, md5Str digest pwd, t⟩))
        (.done, some kb', some (tEncode kb' (pick kb')))
    | .del k name =>
      match mapOf kb k with
      | none => (.done, some kb, none)
      | some m =>
        if (m.load name).isSome then
          let kb' := setMap kb k (m.delete name)
          (.done, some kb', some (tEncode kb' (pick kb')))
        else (.done, some kb, none)
    | .get k name =>
      match loadOf (mapOf kb k) name with
      | none => (.user none, some kb, none)
      | some none => (.nilUser, some kb, none)
      | some (some u) => (.user (some u), some kb, none)
    | .list k =>
      match mapOf kb k with
      | none => (.names [], some kb, none)
      | some _ => (.names ((orderOf (pick kb) k).map Prod.fst), some kb, none)
    | .putOther key value =>
      match kb.other with
      | none => (.panic, some kb, none)
      | some m =>
        let kb' := { kb with other := some (m.store key value) }
        (.done, some kb', some (tEncode kb' (pick kb')))
    | .delOther key =>
      match kb.other with
      | none => (.done, some kb, none)
      | some m =>
        if (m.load key).isSome then
          let kb' := { kb with other := some (m.delete key) }
          (.done, some kb', some (tEncode kb' (pick kb')))
        else (.done, some kb, none)
    | .getOther key => (.value (loadOf kb.other key), some kb, none)

/-- One step; `none` if the mutex of the store does not allow it. A method's result comes with the store and the method. -/
def act {m : Nat} (c : Codec) (limit : Nat) (digest : Bytes → Bytes) (w : World m) : Act m → Option (World m × Option (Fin m × Op × Res))
  | .load i =>
    match w.pend i with
    | none => some ({ w with kb := upd w.kb i (some (KeyStore.load c limit w.file)) }, none)
    | some _ => none
  | .call i op pick =>
    match w.pend i with
    | none =>
      let (r, kb', out) := body digest pick (w.kb i) op
      some ({ w with kb := upd w.kb i kb', pend := upd w.pend i out }, some (i, op, r))
    | some _ => none
  | .write i =>
    match w.pend i with
    | none => none
    | some bs => some ({ w with pend := upd w.pend i none, file := KeyStore.write c bs }, none)

/-- An execution and the results of the methods in it. -/
def exec {m : Nat} (c : Codec) (limit : Nat) (digest : Bytes → Bytes) (w : World m) : List (Act m) → Option (World m × List (Fin m × Op × Res))
  | [] => some (w, [])
  | a :: as =>
    match act c limit digest w a with
    | none => none
    | some (w', r) =>
      match exec c limit digest w' as with
      | none => none
      | some (w'', rs) => some (w'', r.toList ++ rs)

/-- New stores (keystore/keystore.go:21-23) over a file. -/
def init (m : Nat) (file : Bytes) : World m := ⟨fun _ => none, fun _ => none, file⟩

end Gofer.KeyStoreMany
