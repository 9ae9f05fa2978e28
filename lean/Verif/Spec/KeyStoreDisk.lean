import Verif.Model.KeyStoreDisk
import Verif.Spec.KeyStoreMany
/-! # Vocabulary for the properties of the credential store and the disk -/
namespace Gofer.KeyStoreDisk
open Gofer.KeyBean Gofer.KeyStore
open Gofer.Spec.KeyStore (Op Res Maps)
open Gofer.Spec.Codec (Codec)

/-- A method of the store. -/
def isCall : Act → Prop
  | .call _ _ _ => True
  | _ => False

/-- Something that another program does to the key file. -/
def Foreign : Act → Prop
  | .replace _ => True
  | .edit _ => True
  | .remove => True
  | _ => False

/-- The iteration orders really are such. -/
def Good (as : List Act) : Prop := ∀ op pick out, .call op pick out ∈ as → Picks pick

/-- What the next process finds. -/
def found (c : Codec) (limit : Nat) (digest : Bytes → Bytes) (w : World) : Maps := contents (act c limit digest w .restart).1.kb

/-- The methods called. -/
def ops : List Act → List Op
  | [] => []
  | .call op _ _ :: as => op :: ops as
  | _ :: as => ops as

/-- A method that changes nothing whatever the store holds. -/
def ReadOnly : Op → Prop
  | .get _ _ => True
  | .list _ => True
  | .getOther _ => True
  | _ => False

end Gofer.KeyStoreDisk
