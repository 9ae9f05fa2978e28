import Verif.Model.KeyStoreMany
import Verif.Spec.KeyStoreRel
/-! # Vocabulary for the property of several stores over one file -/
namespace Gofer.KeyStoreMany
open Gofer.KeyBean Gofer.KeyStore
open Gofer.Spec.KeyStore hiding Bytes
open Gofer.Spec.Codec (Codec)

/-- A compressor with which the file is read as it was written (unlike the one of C40, so that what follows is not about the writer that is not closed). -/
def Faithful (c : Codec) : Prop := ∀ bs, bs ≠ [] → KeyStore.read c (KeyStore.write c bs) = some bs

/-- The iteration orders of all calls really are such. -/
def Good {m : Nat} (as : List (Act m)) : Prop := ∀ i op pick, .call i op pick ∈ as → Picks pick

/-- Nobody is in a call. -/
def Rest {m : Nat} (w : World m) : Prop := ∀ i, w.pend i = none

/-- The users that are put. -/
def puts {m : Nat} : List (Act m) → List (Kind × Bytes)
  | [] => []
  | .call _ (.put k n _ _) _ :: as => (k, n) :: puts as
  | _ :: as => puts as

/-- No deletions. -/
def NoDel {m : Nat} (as : List (Act m)) : Prop := ∀ i k n pick, .call i (.del k n) pick ∉ as

end Gofer.KeyStoreMany
