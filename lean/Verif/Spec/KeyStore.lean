import Verif.Spec.KeyBean

/-!
# Specification of the credential store: four independent maps
-/
namespace Gofer.Spec.KeyStore
open Gofer.Spec.KeyBean

abbrev Bytes := List UInt8

/-- The three maps of users. -/
inductive Kind where
  | admin | client | mq
deriving DecidableEq

/-- Calls of the API. -/
inductive Op where
  | put (k : Kind) (name pwd : Bytes) (type : UInt8)
  | del (k : Kind) (name : Bytes)
  | get (k : Kind) (name : Bytes)
  | list (k : Kind)
  | putOther (key value : Bytes)
  | delOther (key : Bytes)
  | getOther (key : Bytes)

/-- What a call returns. -/
inductive Res where
  | done
  | user (u : Option User)
  | nilUser
  | names (ns : List Bytes)
  | value (v : Option Bytes)
  | panic

/-- The contents. -/
structure Maps where
  user : Kind → Bytes → Option User
  other : Bytes → Option Bytes

/-- All maps empty. -/
def Maps.empty : Maps := ⟨fun _ _ => none, fun _ => none⟩

/-- Contents after a call; `hash` is what is stored of a password. -/
def next (hash : Bytes → Bytes) (m : Maps) : Op → Maps
  | .put k n p t => { m with user := fun k' n' => if k' = k ∧ n' = n then some ⟨n, hash p, t⟩ else m.user k' n' }
  | .del k n => { m with user := fun k' n' => if k' = k ∧ n' = n then none else m.user k' n' }
  | .putOther n v => { m with other := fun n' => if n' = n then some v else m.other n' }
  | .delOther n => { m with other := fun n' => if n' = n then none else m.other n' }
  | _ => m

/-- The results a call may return. A list contains exactly the names, each once, in any order. -/
def Answer (m : Maps) : Op → Res → Prop
  | .get k n, r => r = .user (m.user k n)
  | .getOther n, r => r = .value (m.other n)
  | .list k, r => ∃ ns, r = .names ns ∧ ns.Nodup ∧ ∀ n, n ∈ ns ↔ (m.user k n).isSome
  | _, r => r = .done

/-- A history of calls and results. -/
def Accepts (hash : Bytes → Bytes) : Maps → List Op → List Res → Prop
  | _, [], [] => True
  | m, o :: os, r :: rs => Answer m o r ∧ Accepts hash (next hash m o) os rs
  | _, _, _ => False

/-- Contents after a history. -/
def after (hash : Bytes → Bytes) (m : Maps) (os : List Op) : Maps := os.foldl (next hash) m

end Gofer.Spec.KeyStore
