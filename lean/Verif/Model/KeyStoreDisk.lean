import Verif.Model.KeyStoreMany
/-!
# A `storeAdmin` and the disk: failing writes, and other programs at work on the key file

One store, one process at a time; calls one after the other (they hold the mutex of the store, keystore/keystore.go:26-27 and so on). Files are numbered; a name refers to at most
one of them, and an open handle keeps to its file when the name is moved or removed (POSIX). `Seek(0, SeekStart)` and `Stat` of an open regular file do not fail; `Truncate` and
`Write` may (keystore/bin.go:47-53). Whether an error comes back from `Write` makes no difference: every caller drops it (keystore/keystore.go:42 and so on).
-/
namespace Gofer.KeyStoreDisk
open Gofer.KeyBean Gofer.KeyStore
open Gofer.Spec.KeyStore (Op Res)
open Gofer.Spec.Codec (Codec)

/-- How the write of the key file goes: well; or `Truncate` fails (`cut = false`) and the file's `Write` stops after `n` bytes. -/
inductive Out where
  | ok
  | bad (cut : Bool) (n : Nat)

/-- The contents of the file after `_keyStore.Write` of the (compressed) bytes `obs` over `old` (keystore/bin.go:44-55). -/
def overwrite (old obs : Bytes) : Out → Bytes
  | .ok => obs
  | .bad cut n => obs.take n ++ if cut then [] else old.drop (obs.take n).length

/-- The bean, the files, the number of the next new file, the file the name refers to, and the file of the open handle (keystore/bin.go:21-27). -/
structure World where
  kb : KB
  files : Nat → Bytes
  next : Nat
  name : Option Nat
  handle : Nat

/-- What can happen. -/
inductive Act where
  /-- a method of the store; `pick` are the iteration orders, `out` is how its write goes if it does one -/
  | call (op : Op) (pick : KB → Orders) (out : Out)
  /-- `Load` -/
  | load
  /-- the process ends and another one starts: `LoadKeyStore` and `Load` -/
  | restart
  /-- another program renames a file with these contents over the key file -/
  | replace (bs : Bytes)
  /-- another program writes these contents into the key file, in place -/
  | edit (bs : Bytes)
  /-- another program removes the key file -/
  | remove

/-- One file with new contents. -/
def setFile (files : Nat → Bytes) (i : Nat) (bs : Bytes) : Nat → Bytes := fun j => if j = i then bs else files j

/-- `_keyStore.Read` (keystore/bin.go:57-71): the size is that of the open file, the contents are those of the file under the name; `none` is an error. -/
def read (c : Codec) (w : World) : Option Bytes :=
  if (w.files w.handle).length > 0 then
    match w.name with
    | none => none
    | some f =>
      let obs := Compress.utilUnZlib c (w.files f)
      if obs.err = false then some obs.bytes else some (w.files f)
  else none

/-- `storeAdmin.Load` (keystore/keystore.go:25-36). -/
def loadAdmin (c : Codec) (limit : Nat) (w : World) : World :=
  { w with kb := match read c w with
      | none => fresh
      | some bs =>
        match tDecode limit bs with
        | some kb => kb
        | none => fresh }

/-- `LoadKeyStore` (keystore/bin.go:36-43): opens the file under the name and creates it if it is missing. -/
def openStore (w : World) : World :=
  match w.name with
  | some f => { w with handle := f }
  | none => { w with files := setFile w.files w.next [], name := some w.next, handle := w.next, next := w.next + 1 }

/-- One event, and the result of a method. -/
def act (c : Codec) (limit : Nat) (digest : Bytes → Bytes) (w : World) : Act → World × Option (Op × Res)
  | .call op pick out =>
    let (r, kb', bs) := KeyStoreMany.body digest pick (some w.kb) op
    ({ w with
        kb := kb'.getD w.kb
        files := match bs with
          | none => w.files
          | some bs => setFile w.files w.handle (overwrite (w.files w.handle) (KeyStore.write c bs) out) }, some (op, r))
  | .load => (loadAdmin c limit w, none)
  | .restart => (loadAdmin c limit (openStore w), none)
  | .replace bs => ({ w with files := setFile w.files w.next bs, name := some w.next, next := w.next + 1 }, none)
  | .edit bs =>
    match w.name with
    | none => (w, none)
    | some f => ({ w with files := setFile w.files f bs }, none)
  | .remove => ({ w with name := none }, none)

/-- An execution and the results of its methods. -/
def exec (c : Codec) (limit : Nat) (digest : Bytes → Bytes) : World → List Act → World × List (Op × Res)
  | w, [] => (w, [])
  | w, a :: as =>
    let (w', r) := act c limit digest w a
    let (w'', rs) := exec c limit digest w' as
    (w'', r.toList ++ rs)

/-- A process that has opened the key file with these contents and loaded it. -/
def start (c : Codec) (limit : Nat) (file : Bytes) : World :=
  loadAdmin c limit ⟨fresh, fun _ => file, 1, some 0, 0⟩

end Gofer.KeyStoreDisk
