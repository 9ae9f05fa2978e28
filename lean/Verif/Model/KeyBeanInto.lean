import Verif.Model.KeyBean
/-!
# `util.TDecode` and `thrift.TDecode` into a bean that is already in use

`TDecode(bs, ts)` (util/gob.go:54-59, thrift/serialize.go:28-33) reads into the struct it is given and returns it, error or not. Here the readers keep what they have
put into the struct when an error ends them; `Model/KeyBean` has the same readers without that.
-/
namespace Gofer.KeyBean
open Gofer.Thrift

/-- The loop of `ReadField1` … `ReadField3` (keystore/store.go:348-361): the map so far, and the rest unless there was an error. -/
def readUsersInto (limit : Nat) : Nat → UserMap → Bytes → UserMap × Option Bytes
  | 0, m, bs => (m, some bs)
  | n + 1, m, bs =>
    match readString limit bs with
    | none => (m, none)
    | some (k, r) =>
      match readUser limit r with
      | none => (m, none)
      | some (u, r) => readUsersInto limit n (m.store k (some u)) r

/-- The loop of `ReadField4` (keystore/store.go:426-441). -/
def readStrsInto (limit : Nat) : Nat → StrMap → Bytes → StrMap × Option Bytes
  | 0, m, bs => (m, some bs)
  | n + 1, m, bs =>
    match readString limit bs with
    | none => (m, none)
    | some (k, r) =>
      match readString limit r with
      | none => (m, none)
      | some (v, r) => readStrsInto limit n (m.store k v) r

/-- `ReadField1` … `ReadField3` (keystore/store.go:341-417): a new map is put into the field once its size is known, and then filled. -/
def readUserFieldInto (limit : Nat) (old : Option UserMap) (bs : Bytes) : Option UserMap × Option Bytes :=
  match readMapBegin limit bs with
  | none => (old, none)
  | some ((_, _, n), r) => let (m, r) := readUsersInto limit n AMap.empty r; (some m, r)

/-- `ReadField4` (keystore/store.go:419-445). -/
def readStrFieldInto (limit : Nat) (old : Option StrMap) (bs : Bytes) : Option StrMap × Option Bytes :=
  match readMapBegin limit bs with
  | none => (old, none)
  | some ((_, _, n), r) => let (m, r) := readStrsInto limit n AMap.empty r; (some m, r)

/-- The field loop of `KeyBean.Read` (keystore/store.go:279-335): the bean, and whether it was read without error. -/
def readKBInto (limit : Nat) : Nat → Int → KB → Bytes → KB × Bool
  | 0, _, kb, _ => (kb, false)
  | fuel + 1, last, kb, bs =>
    match readFieldBegin last bs with
    | none => (kb, false)
    | some (none, _) => (kb, true)
    | some (some (t, id), r) =>
      if id = 1 ∧ t = .map then
        match readUserFieldInto limit kb.admin r with
        | (m, none) => ({ kb with admin := m }, false)
        | (m, some r) => readKBInto limit fuel id { kb with admin := m } r
      else if id = 2 ∧ t = .map then
        match readUserFieldInto limit kb.client r with
        | (m, none) => ({ kb with client := m }, false)
        | (m, some r) => readKBInto limit fuel id { kb with client := m } r
      else if id = 3 ∧ t = .map then
        match readUserFieldInto limit kb.mq r with
        | (m, none) => ({ kb with mq := m }, false)
        | (m, some r) => readKBInto limit fuel id { kb with mq := m } r
      else if id = 4 ∧ t = .map then
        match readStrFieldInto limit kb.other r with
        | (m, none) => ({ kb with other := m }, false)
        | (m, some r) => readKBInto limit fuel id { kb with other := m } r
      else
        match skip limit maxDepth (some t) (t = .bool) r with
        | none => (kb, false)
        | some r => readKBInto limit fuel id kb r

/-- `TDecode(bs, kb)`: the bean afterwards, and whether `err` is nil. -/
def tDecodeInto (limit : Nat) (kb : KB) (bs : Bytes) : KB × Bool := readKBInto limit (bs.length + 1) 0 kb bs

end Gofer.KeyBean
