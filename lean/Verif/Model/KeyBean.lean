import Verif.Model.AMap
import Verif.Model.Thrift
import Verif.Spec.KeyBean

/-!
# Model of `keystore/store.go` (generated Thrift code) and of `util.TEncode`/`util.TDecode`

Strings are byte strings. A `map[string]*UserBean` is `Option (AMap Bytes (Option User))`: the outer
`none` is a nil map, the inner one a nil pointer. All read errors are one value `none`.
-/
namespace Gofer.KeyBean
open Gofer.Thrift
open Gofer.Spec.Thrift (TType)
open Gofer.Spec.KeyBean (User)

abbrev UserMap := AMap Bytes (Option User)
abbrev StrMap := AMap Bytes Bytes

/-- `KeyBean` (keystore/store.go:226-231). -/
structure KB where
  admin : Option UserMap
  client : Option UserMap
  mq : Option UserMap
  other : Option StrMap

/-- `UserBean.Write` (keystore/store.go:154-167) with `writeField1..3`; a nil receiver writes no fields. -/
def writeUser : Option User → Bytes
  | none => writeFieldStop
  | some u =>
    writeFieldBegin 0 .string 1 ++ writeString u.name ++ (writeFieldBegin 1 .string 2 ++ writeString u.pwd ++
      (writeFieldBegin 2 .byte 3 ++ writeByte u.type ++ writeFieldStop))

/-- The loop over a `map[string]*UserBean` in some order (keystore/store.go:470-476). -/
def writeUsers : List (Bytes × Option User) → Bytes
  | [] => []
  | (k, v) :: r => writeString k ++ (writeUser v ++ writeUsers r)

/-- The loop over a `map[string]string` (keystore/store.go:539-544). -/
def writeStrs : List (Bytes × Bytes) → Bytes
  | [] => []
  | (k, v) :: r => writeString k ++ (writeString v ++ writeStrs r)

/-- `writeField1` … `writeField3` (keystore/store.go:463-530): nothing for a nil map. `order` is the
order in which Go happens to iterate. Returns the bytes and the last field id written. -/
def writeUserField (last id : Nat) (m : Option UserMap) (order : List (Bytes × Option User)) : Bytes × Nat :=
  match m with
  | none => ([], last)
  | some m => (writeFieldBegin last .map id ++ (writeMapBegin .string .struct m.size ++ writeUsers order), id)

/-- `writeField4` (keystore/store.go:532-552). -/
def writeStrField (last id : Nat) (m : Option StrMap) (order : List (Bytes × Bytes)) : Bytes × Nat :=
  match m with
  | none => ([], last)
  | some m => (writeFieldBegin last .map id ++ (writeMapBegin .string .string m.size ++ writeStrs order), id)

/-- Iteration orders of the four maps. -/
structure Orders where
  admin : List (Bytes × Option User)
  client : List (Bytes × Option User)
  mq : List (Bytes × Option User)
  other : List (Bytes × Bytes)

/-- `KeyBean.Write` (keystore/store.go:447-461) through `util.TEncode` (util/gob.go:45-52). -/
def tEncode (kb : KB) (o : Orders) : Bytes :=
  let (b1, l1) := writeUserField 0 1 kb.admin o.admin
  let (b2, l2) := writeUserField l1 2 kb.client o.client
  let (b3, l3) := writeUserField l2 3 kb.mq o.mq
  let (b4, _) := writeStrField l3 4 kb.other o.other
  b1 ++ (b2 ++ (b3 ++ (b4 ++ writeFieldStop)))

/-- What has been read of a `UserBean`; `none` is "not set". -/
structure UserAcc where
  name : Option Bytes
  pwd : Option Bytes
  type : Option UInt8

/-- The field loop of `UserBean.Read` (keystore/store.go:62-109). -/
def readUserLoop (limit : Nat) : Nat → Int → UserAcc → Bytes → Option (UserAcc × Bytes)
  | 0, _, _, _ => none
  | fuel + 1, last, acc, bs =>
    match readFieldBegin last bs with
    | none => none
    | some (none, r) => some (acc, r)
    | some (some (t, id), r) =>
      if id = 1 ∧ t = .string then
        match readString limit r with
        | none => none
        | some (s, r) => readUserLoop limit fuel id { acc with name := some s } r
      else if id = 2 ∧ t = .string then
        match readString limit r with
        | none => none
        | some (s, r) => readUserLoop limit fuel id { acc with pwd := some s } r
      else if id = 3 ∧ t = .byte then
        match readByte r with
        | none => none
        | some (b, r) => readUserLoop limit fuel id { acc with type := some b } r
      else
        match skip limit maxDepth (some t) (t = .bool) r with
        | none => none
        | some r => readUserLoop limit fuel id acc r

/-- `UserBean.Read` (keystore/store.go:53-124): all three fields are required. -/
def readUser (limit : Nat) (bs : Bytes) : Option (User × Bytes) :=
  match readUserLoop limit (bs.length + 1) 0 ⟨none, none, none⟩ bs with
  | some (⟨some name, some pwd, some type⟩, r) => some (⟨name, pwd, type⟩, r)
  | _ => none

/-- The loop of `ReadField1` … `ReadField3` (keystore/store.go:348-361). -/
def readUsers (limit : Nat) : Nat → UserMap → Bytes → Option (UserMap × Bytes)
  | 0, m, bs => some (m, bs)
  | n + 1, m, bs =>
    match readString limit bs with
    | none => none
    | some (k, r) =>
      match readUser limit r with
      | none => none
      | some (u, r) => readUsers limit n (m.store k (some u)) r

/-- The loop of `ReadField4` (keystore/store.go:426-441). -/
def readStrs (limit : Nat) : Nat → StrMap → Bytes → Option (StrMap × Bytes)
  | 0, m, bs => some (m, bs)
  | n + 1, m, bs =>
    match readString limit bs with
    | none => none
    | some (k, r) =>
      match readString limit r with
      | none => none
      | some (v, r) => readStrs limit n (m.store k v) r

/-- `ReadField1` … `ReadField3` (keystore/store.go:341-417); the announced element types are ignored. -/
def readUserField (limit : Nat) (bs : Bytes) : Option (UserMap × Bytes) :=
  match readMapBegin limit bs with
  | none => none
  | some ((_, _, n), r) => readUsers limit n AMap.empty r

/-- `ReadField4` (keystore/store.go:419-445). -/
def readStrField (limit : Nat) (bs : Bytes) : Option (StrMap × Bytes) :=
  match readMapBegin limit bs with
  | none => none
  | some ((_, _, n), r) => readStrs limit n AMap.empty r

/-- The field loop of `KeyBean.Read` (keystore/store.go:279-335). -/
def readKBLoop (limit : Nat) : Nat → Int → KB → Bytes → Option (KB × Bytes)
  | 0, _, _, _ => none
  | fuel + 1, last, kb, bs =>
    match readFieldBegin last bs with
    | none => none
    | some (none, r) => some (kb, r)
    | some (some (t, id), r) =>
      if id = 1 ∧ t = .map then
        match readUserField limit r with
        | none => none
        | some (m, r) => readKBLoop limit fuel id { kb with admin := some m } r
      else if id = 2 ∧ t = .map then
        match readUserField limit r with
        | none => none
        | some (m, r) => readKBLoop limit fuel id { kb with client := some m } r
      else if id = 3 ∧ t = .map then
        match readUserField limit r with
        | none => none
        | some (m, r) => readKBLoop limit fuel id { kb with mq := some m } r
      else if id = 4 ∧ t = .map then
        match readStrField limit r with
        | none => none
        | some (m, r) => readKBLoop limit fuel id { kb with other := some m } r
      else
        match skip limit maxDepth (some t) (t = .bool) r with
        | none => none
        | some r => readKBLoop limit fuel id kb r

/-- `KeyBean.Read` (keystore/store.go:273-339) into a fresh bean, through `util.TDecode`
(util/gob.go:54-59); `none` is an error. Trailing bytes are ignored. -/
def tDecode (limit : Nat) (bs : Bytes) : Option KB :=
  (readKBLoop limit (bs.length + 1) 0 ⟨none, none, none, none⟩ bs).map Prod.fst

/-- The entries of a map; none for a nil map. -/
def entriesOf {A : Type} (m : Option (AMap Bytes A)) : List (Bytes × A) :=
  match m with
  | none => []
  | some m => m.entries

/-- `m[k]`, nothing for a nil map. -/
def loadOf {A : Type} (m : Option (AMap Bytes A)) (k : Bytes) : Option A :=
  match m with
  | none => none
  | some m => m.load k

/-- `UserBean.Equals` (keystore/store.go:199-209) on two pointers to different objects, or nil. -/
def userEquals (p other : Option User) : Bool :=
  match p, other with
  | none, none => true
  | some p, some other => p.name == other.name && p.pwd == other.pwd && p.type == other.type
  | _, _ => false

/-- One map of `KeyBean.Equals`: the lengths, then for every key the value against `other[k]`, which is
the zero value for a missing key. -/
def mapEquals {A : Type} (eq : A → A → Bool) (zero : A) (p other : Option (AMap Bytes A)) : Bool :=
  (entriesOf p).length == (entriesOf other).length &&
    (entriesOf p).all fun e => eq e.2 ((loadOf other e.1).getD zero)

/-- `KeyBean.Equals` (keystore/store.go:554-581) on two different objects. -/
def equals (p other : KB) : Bool :=
  mapEquals userEquals none p.admin other.admin && mapEquals userEquals none p.client other.client &&
    mapEquals userEquals none p.mq other.mq && mapEquals (fun a b => a == b) [] p.other other.other

end Gofer.KeyBean
