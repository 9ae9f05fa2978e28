import Verif.Spec.RaceLock
import Verif.Model.Lock
/-!
# The synchronisation of `Numlock`, `Strlock` and `LimitLock` (lock/lock.go)
-/
namespace Gofer.Race.Keyed

variable {K D : Type}

/-- The action of a step on the mutexes; `ix` is the mutex of a key (`Lock.numMutex`, `Lock.strMutex`). `none` is a panic: there is no mutex. The entries of `lockm` are
written by the constructor only (lock/lock.go:28-34, 66-72).
Lock, TryLock, Unlock of Numlock: lock/lock.go:37-57. Lock, TryLock, Unlock, RLock, TryRLock, RUnlock of Strlock: lock/lock.go:75-124. -/
def act (ix : K → Option Nat) : Do K D → Option (Act Nat D Unit)
  | .lock k => (ix k).map .lock
  | .unlock k => (ix k).map .unlock
  | .rlock k => (ix k).map .rlock
  | .runlock k => (ix k).map .runlock
  | .read d => some (.rd d ())
  | .write d => some (.wr d ())

/-- The actions of a program, up to the first panic. -/
def run (ix : K → Option Nat) : List (Do K D) → List (Act Nat D Unit)
  | [] => []
  | a :: l =>
    match act ix a with
    | none => []
    | some b => b :: run ix l

/-- The channel of a `LimitLock`, its counters (lock/lock.go:127-132), and the data. -/
inductive LLoc (D : Type) | ch | count | count' | data (d : D) deriving DecidableEq

/-- The actions of a program that uses a `LimitLock` of limit `limit`; the value of `ch` is the number of elements in the channel. With limit 1 a send is ordered with the
receives before and after it, so the channel is accessed like an atomic variable.
Lock: lock/lock.go:141-149, the case that it gets the lock; Unlock: lock/lock.go:152-155. -/
inductive LRuns (limit : Nat) : List (Do Unit D) → List (Act Empty (LLoc D) Nat) → Prop where
  | nil : LRuns limit [] []
  | lock {l a} (n c : Nat) (h : n < limit) (r : LRuns limit l a) : LRuns limit (.lock () :: l) (.armw .ch n (n + 1) :: .armw .count c (c + 1) :: a)
  | unlock {l a} (n c : Nat) (r : LRuns limit l a) : LRuns limit (.unlock () :: l) (.armw .ch (n + 1) n :: .armw .count' c (c + 1) :: a)
  | read {l a} (d : D) (v : Nat) (r : LRuns limit l a) : LRuns limit (.read d :: l) (.rd (.data d) v :: a)
  | write {l a} (d : D) (v : Nat) (r : LRuns limit l a) : LRuns limit (.write d :: l) (.wr (.data d) v :: a)

end Gofer.Race.Keyed
