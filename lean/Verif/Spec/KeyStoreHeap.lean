import Verif.Model.KeyStoreHeap
/-! # Vocabulary for the property of handed out records -/
namespace Gofer.KeyStoreHeap
open Gofer.Spec.KeyBean (User)
open Gofer.Spec.KeyStore (Kind)

/-- A step of the store itself. -/
def isCall : Act → Prop
  | .poke _ _ => False
  | _ => True

/-- The user a step is about. -/
def about : Act → Option (Kind × Bytes)
  | .put k n _ _ => some (k, n)
  | .del k n => some (k, n)
  | _ => none

end Gofer.KeyStoreHeap
