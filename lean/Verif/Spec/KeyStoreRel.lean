import Verif.Model.KeyStore
import Verif.Spec.KeyBeanRel

/-! # Vocabulary for the properties of the credential store -/
namespace Gofer.KeyStore
open Gofer.KeyBean
open Gofer.Spec.KeyBean (User)
open Gofer.Spec.KeyStore

/-- No map is nil. -/
def Full (kb : KB) : Prop := (∀ k, (mapOf kb k).isSome) ∧ kb.other.isSome

/-- The bean holds these maps, none of them nil. -/
structure Rep (kb : KB) (m : Maps) : Prop where
  users : ∀ k, ∃ x, mapOf kb k = some x ∧ ∀ n, x.load n = (m.user k n).map some
  others : ∃ x, kb.other = some x ∧ ∀ n, x.load n = m.other n

/-- The orders really are iteration orders. -/
def Picks (pick : KB → Orders) : Prop := ∀ kb, OrdersOf kb (pick kb)

/-- The history's orders really are iteration orders. -/
def AllPicks (hist : List (Op × (KB → Orders))) : Prop := ∀ p ∈ hist, Picks p.2

/-- The maps a bean holds, with missing maps empty. -/
def contents (kb : KB) : Maps := ⟨fun k n => (loadOf (mapOf kb k) n).join, fun n => loadOf kb.other n⟩

end Gofer.KeyStore
