import Verif.Model.Uuid
/-!
# Several processes that make UUIDs (uuid/uuid.go)

The hash value of a call is `hash64(b.slice33(seq))` (uuid/uuid.go:144-148): process id, machine id and address are fixed in a process, so is the seed of `maphash`; what
is hashed differs from call to call in the sequence number only. So a process has a function from sequence numbers to hash values. Simplified: `scale` (uuid/uuid.go:152)
is 0; it is raised when the sequence number passes 2^64.
-/
namespace Gofer.Uuid

/-- The numbers of 64 bits. -/
abbrev Word := Fin (2 ^ 64)

/-- A function from sequence numbers to hash values. -/
abbrev HashFn := Word → Word

/-- The hash value of the call with a sequence number (uuid/uuid.go:144-148). -/
def HashFn.val (H : HashFn) (seq : BitVec 64) : BitVec 64 := BitVec.ofFin (H seq.toFin)

/-- All calls of an execution have the hash values of `H`. -/
def Hashed {n : Nat} (H : HashFn) (s : St n) : List (Act n) → Prop
  | [] => True
  | a :: as =>
    (match a with
      | .add _ => True
      | .finish t h => ∀ q, s.held t = some q → h = H.val q) ∧
    match act s a with
      | some s' => Hashed H s' as
      | none => True

end Gofer.Uuid
