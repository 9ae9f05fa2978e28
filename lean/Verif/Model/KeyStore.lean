import Verif.Model.KeyBean
import Verif.Model.Compress
import Verif.Spec.KeyStore

/-!
# Model of `keystore/keystore.go` and `keystore/bin.go`

The key file is its contents. Every method of `storeAdmin` runs under one mutex, so a concurrent
execution is a sequence of calls. MD5 (library) is a parameter `digest`. File system errors are not
modelled (`Write` succeeds) except a crash, see `crashes`. `GetAdmin` etc. return a pointer into the map; that
a caller may modify the record through it is not modelled.
-/
namespace Gofer.KeyStore
open Gofer.KeyBean Gofer.Compress
open Gofer.Spec.KeyBean (User)
open Gofer.Spec.KeyStore (Op Res Kind)
open Gofer.Spec.Codec (Codec)

abbrev Bytes := List UInt8

/-- Upper-case hexadecimal digit, as produced by `hex.EncodeToString` and `strings.ToUpper` (library). -/
def hexDigit (n : Nat) : UInt8 := if n < 10 then (48 + n).toUInt8 else (55 + n).toUInt8

/-- `util.Md5Str` (util/encode.go:45-47). -/
def md5Str (digest : Bytes → Bytes) (s : Bytes) : Bytes :=
  (digest s).flatMap fun b => [hexDigit (b.toNat / 16), hexDigit (b.toNat % 16)]

/-- `_keyStore.Write` (keystore/bin.go:44-55): the new contents of the file. -/
def write (c : Codec) (bs : Bytes) : Bytes :=
  let obs := utilZlib c bs
  if obs.err then bs else obs.bytes

/-- `_keyStore.Read` (keystore/bin.go:57-71); `none` is an error. -/
def read (c : Codec) (file : Bytes) : Option Bytes :=
  if file.length > 0 then
    let obs := utilUnZlib c file
    if obs.err = false then some obs.bytes else some file
  else none

/-- The states of the file that a crash during `_keyStore.Write` can leave (keystore/bin.go:47-53): before
`Truncate`, after it, or after a part of the write. -/
def crashes (c : Codec) (old bs : Bytes) : List Bytes := old :: (List.range ((write c bs).length + 1)).map fun n => (write c bs).take n

/-- The bean with four empty maps (keystore/keystore.go:34). -/
def fresh : KB := ⟨some AMap.empty, some AMap.empty, some AMap.empty, some AMap.empty⟩

/-- `storeAdmin.Load` (keystore/keystore.go:25-36). -/
def load (c : Codec) (limit : Nat) (file : Bytes) : KB :=
  match read c file with
  | none => fresh
  | some bs =>
    match tDecode limit bs with
    | some kb => kb
    | none => fresh

/-- A store: its bean and the file. -/
structure St where
  kb : KB
  file : Bytes

/-- The map of a kind. -/
def mapOf (kb : KB) : Kind → Option UserMap
  | .admin => kb.admin
  | .client => kb.client
  | .mq => kb.mq

/-- The bean with one map replaced. -/
def setMap (kb : KB) (k : Kind) (m : UserMap) : KB :=
  match k with
  | .admin => { kb with admin := some m }
  | .client => { kb with client := some m }
  | .mq => { kb with mq := some m }

/-- The iteration order of a kind. -/
def orderOf (o : Orders) : Kind → List (Bytes × Option User)
  | .admin => o.admin
  | .client => o.client
  | .mq => o.mq

/-- `KeyStore.Write(util.TEncode(this.kb))` (keystore/keystore.go:42). `pick` gives the iteration orders. -/
def save (c : Codec) (pick : KB → Orders) (kb : KB) : St := ⟨kb, write c (tEncode kb (pick kb))⟩

/-- The methods of `storeAdmin` (keystore/keystore.go:38-158). Writing to a nil map panics; reading,
deleting and ranging do not. -/
def step (c : Codec) (digest : Bytes → Bytes) (pick : KB → Orders) (s : St) : Op → Res × St
  | .put k name pwd t =>
    match mapOf s.kb k with
    | none => (.panic, s)
    | some m => (.done, save c pick (setMap s.kb k (m.store name (some ⟨name, md5Str digest pwd, t⟩))))
  | .del k name =>
    match mapOf s.kb k with
    | none => (.done, s)
    | some m => if (m.load name).isSome then (.done, save c pick (setMap s.kb k (m.delete name))) else (.done, s)
  | .get k name =>
    match loadOf (mapOf s.kb k) name with
    | none => (.user none, s)
    | some none => (.nilUser, s)
    | some (some u) => (.user (some u), s)
  | .list k =>
    match mapOf s.kb k with
    | none => (.names [], s)
    | some _ => (.names ((orderOf (pick s.kb) k).map Prod.fst), s)
  | .putOther key value =>
    match s.kb.other with
    | none => (.panic, s)
    | some m => (.done, save c pick { s.kb with other := some (m.store key value) })
  | .delOther key =>
    match s.kb.other with
    | none => (.done, s)
    | some m => if (m.load key).isSome then (.done, save c pick { s.kb with other := some (m.delete key) }) else (.done, s)
  | .getOther key => (.value (loadOf s.kb.other key), s)

/-- A history; every call comes with the iteration orders Go happens to use in it. -/
def run (c : Codec) (digest : Bytes → Bytes) : St → List (Op × (KB → Orders)) → List Res × St
  | s, [] => ([], s)
  | s, (op, pick) :: h =>
    let (r, s') := step c digest pick s op
    let (rs, s'') := run c digest s' h
    (r :: rs, s'')

end Gofer.KeyStore
