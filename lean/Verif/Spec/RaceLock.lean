import Verif.Spec.Race
/-!
# Careful use of locks with keys

Programs that protect data by locks with keys `K`. Every datum has one key.
-/
namespace Gofer.Race.Keyed

/-- What a goroutine does: the lock of a key for writing and for reading, an access to a datum. A successful `TryLock` is a `Lock`, one that fails is nothing. -/
inductive Do (K D : Type) where
  | lock (k : K)
  | unlock (k : K)
  | rlock (k : K)
  | runlock (k : K)
  | read (d : D)
  | write (d : D)
  deriving DecidableEq

variable {K D : Type} [DecidableEq K]

/-- A goroutine that has the keys `W` for writing and the keys `R` for reading goes on carefully: it gives back what it has, reads a datum only with its key and
writes it only with its key for writing. Several keys may be held at a time. -/
def Careful (key : D → K) : List K → List K → List (Do K D) → Prop
  | _, _, [] => True
  | W, R, .lock k :: l => Careful key (k :: W) R l
  | W, R, .unlock k :: l => k ∈ W ∧ Careful key (W.erase k) R l
  | W, R, .rlock k :: l => Careful key W (k :: R) l
  | W, R, .runlock k :: l => k ∈ R ∧ Careful key W (R.erase k) l
  | W, R, .read d :: l => (key d ∈ W ∨ key d ∈ R) ∧ Careful key W R l
  | W, R, .write d :: l => key d ∈ W ∧ Careful key W R l

/-- A goroutine that uses one lock without a key, `n` times at the moment: it gives back what it has and accesses data only with it. -/
def Careful1 {D : Type} : Nat → List (Do Unit D) → Prop
  | _, [] => True
  | n, .lock _ :: l => Careful1 (n + 1) l
  | n, .unlock _ :: l => 0 < n ∧ Careful1 (n - 1) l
  | n, .read _ :: l => 0 < n ∧ Careful1 n l
  | n, .write _ :: l => 0 < n ∧ Careful1 n l
  | _, .rlock _ :: _ => False
  | _, .runlock _ :: _ => False

end Gofer.Race.Keyed
