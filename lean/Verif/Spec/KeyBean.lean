import Verif.Spec.Thrift

/-!
# What a serialised `KeyBean` means

A Thrift struct (a list of fields) read as a bean: fields 1, 2, 3 are maps from strings to user structs,
field 4 a map from strings to strings. Later fields and entries win. Fields with another id or another
type are ignored. A user struct must have its three fields.
-/
namespace Gofer.Spec.KeyBean
open Gofer.Spec.Thrift

/-- A user record, `UserBean` (keystore/store.go:31-35). -/
structure User where
  name : List UInt8
  pwd : List UInt8
  type : UInt8
deriving DecidableEq

/-- A bean; an absent map is `none`. -/
structure Bean where
  admin : Option (List UInt8 → Option User)
  client : Option (List UInt8 → Option User)
  mq : Option (List UInt8 → Option User)
  other : Option (List UInt8 → Option (List UInt8))

/-- The bean without maps. -/
def Bean.empty : Bean := ⟨none, none, none, none⟩

/-- The last string in a field with this id. -/
def lastStr (id : Int) : TFields → Option (List UInt8) → Option (List UInt8)
  | .nil, acc => acc
  | .cons i v rest, acc => lastStr id rest (match v with | .str s => if i = id then some s else acc | _ => acc)

/-- The last byte in a field with this id. -/
def lastByte (id : Int) : TFields → Option UInt8 → Option UInt8
  | .nil, acc => acc
  | .cons i v rest, acc => lastByte id rest (match v with | .byte b => if i = id then some b else acc | _ => acc)

/-- A struct read as a user. -/
def userOf (fs : TFields) : Option User :=
  match lastStr 1 fs none, lastStr 2 fs none, lastByte 3 fs none with
  | some n, some p, some t => some ⟨n, p, t⟩
  | _, _, _ => none

/-- Map entries read as users. -/
def usersOf : TPairs → (List UInt8 → Option User) → Option (List UInt8 → Option User)
  | .nil, m => some m
  | .cons (.str k) (.struct fs) rest, m =>
    match userOf fs with
    | some u => usersOf rest fun x => if x = k then some u else m x
    | none => none
  | .cons _ _ _, _ => none

/-- Map entries read as strings. -/
def strsOf : TPairs → (List UInt8 → Option (List UInt8)) → Option (List UInt8 → Option (List UInt8))
  | .nil, m => some m
  | .cons (.str k) (.str v) rest, m => strsOf rest fun x => if x = k then some v else m x
  | .cons _ _ _, _ => none

/-- A struct read as a bean. -/
def beanOf : TFields → Bean → Option Bean
  | .nil, b => some b
  | .cons id v rest, b =>
    match v with
    | .map _ _ es =>
      if id = 1 then
        match usersOf es fun _ => none with
        | some m => beanOf rest { b with admin := some m }
        | none => none
      else if id = 2 then
        match usersOf es fun _ => none with
        | some m => beanOf rest { b with client := some m }
        | none => none
      else if id = 3 then
        match usersOf es fun _ => none with
        | some m => beanOf rest { b with mq := some m }
        | none => none
      else if id = 4 then
        match strsOf es fun _ => none with
        | some m => beanOf rest { b with other := some m }
        | none => none
      else beanOf rest b
    | _ => beanOf rest b

/-- The maps in fields 1 … 4 have the announced element types (the generated reader does not check). -/
def Shaped : TFields → Prop
  | .nil => True
  | .cons id v rest =>
    (match v with
      | .map kt vt es => es.length = 0 ∨
        ((id = 1 ∨ id = 2 ∨ id = 3 → kt = .string ∧ vt = .struct) ∧ (id = 4 → kt = .string ∧ vt = .string))
      | _ => True) ∧ Shaped rest

/-- The fields with the known ids and types. -/
def known : TFields → TFields
  | .nil => .nil
  | .cons id v rest =>
    match v with
    | .map kt vt es => if id = 1 ∨ id = 2 ∨ id = 3 ∨ id = 4 then .cons id (.map kt vt es) (known rest) else known rest
    | _ => known rest

end Gofer.Spec.KeyBean
