import Verif.Model.KeyBean

/-!
# Vocabulary for the properties of `KeyBean`

Relations between beans of the model (Go maps, possibly nil) and of the specification.
-/
namespace Gofer.KeyBean
open Gofer.Thrift
open Gofer.Spec.KeyBean

/-- Iteration orders: each map's entries, in some order. -/
structure OrdersOf (kb : KB) (o : Orders) : Prop where
  admin : ∀ m, kb.admin = some m → o.admin.Perm m.entries
  client : ∀ m, kb.client = some m → o.client.Perm m.entries
  mq : ∀ m, kb.mq = some m → o.mq.Perm m.entries
  other : ∀ m, kb.other = some m → o.other.Perm m.entries

/-- Sizes of a list of entries. -/
def FitsU (limit : Nat) (l : List (Bytes × Option User)) : Prop :=
  l.length ≤ limit ∧ ∀ p ∈ l, p.1.length ≤ limit ∧ ∀ u, p.2 = some u → u.name.length ≤ limit ∧ u.pwd.length ≤ limit

/-- Sizes of a list of entries. -/
def FitsS (limit : Nat) (l : List (Bytes × Bytes)) : Prop :=
  l.length ≤ limit ∧ ∀ p ∈ l, p.1.length ≤ limit ∧ p.2.length ≤ limit

/-- All sizes are within the protocol's limit. -/
structure Fits (limit : Nat) (kb : KB) : Prop where
  admin : ∀ m, kb.admin = some m → FitsU limit m.entries
  client : ∀ m, kb.client = some m → FitsU limit m.entries
  mq : ∀ m, kb.mq = some m → FitsU limit m.entries
  other : ∀ m, kb.other = some m → FitsS limit m.entries

/-- Some map holds a nil user. -/
def HasNil (kb : KB) : Prop :=
  (∃ m k, kb.admin = some m ∧ m.load k = some none) ∨ (∃ m k, kb.client = some m ∧ m.load k = some none) ∨
    (∃ m k, kb.mq = some m ∧ m.load k = some none)

/-- Same maps, entry by entry; a nil map is not an empty one. -/
def sameMap {A : Type} : Option (AMap Bytes A) → Option (AMap Bytes A) → Prop
  | none, none => True
  | some m, some m' => ∀ k, m.load k = m'.load k
  | _, _ => False

/-- Same beans. -/
def Same (kb kb' : KB) : Prop :=
  sameMap kb.admin kb'.admin ∧ sameMap kb.client kb'.client ∧ sameMap kb.mq kb'.mq ∧ sameMap kb.other kb'.other

/-- A map of the model and a map of the specification hold the same users. -/
def AgreeU : Option UserMap → Option (Bytes → Option User) → Prop
  | none, none => True
  | some m, some f => ∀ k, m.load k = (f k).map some
  | _, _ => False

/-- The same strings. -/
def AgreeS : Option StrMap → Option (Bytes → Option Bytes) → Prop
  | none, none => True
  | some m, some f => ∀ k, m.load k = f k
  | _, _ => False

/-- The same bean. -/
def Agree (kb : KB) (b : Bean) : Prop :=
  AgreeU kb.admin b.admin ∧ AgreeU kb.client b.client ∧ AgreeU kb.mq b.mq ∧ AgreeS kb.other b.other

end Gofer.KeyBean
