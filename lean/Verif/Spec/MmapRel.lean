import Verif.Model.Mmap
import Verif.Spec.Mmap

/-! # Vocabulary for the calls of an execution -/
namespace Gofer.Mmap
open Gofer.Spec.Mmap

/-- `e` has no address in common with any other entry. -/
def Alone (log : List Entry) (i : Nat) (e : Entry) : Prop :=
  ∀ j f, j ≠ i → log[j]? = some f → Apart e.start e.data.length f.start f.data.length

/-- Neither a `WriteAt` nor a `WriteAtSync` call. -/
def NotWriteAt : Act → Prop
  | .writeAt .. => False
  | _ => True

/-- Regions back to back from `o`. -/
def BackToBack (o : Nat) : List Entry → Prop
  | [] => True
  | e :: es => e.start = o ∧ BackToBack (o + e.data.length) es

end Gofer.Mmap
