/-!
# `LimitLock` when anybody may call `Unlock`

As `Gofer.Lock.Limit` (`Verif/Model/Lock.lean`), but `Unlock` is a call of its own: by a goroutine that has the lock, for it, or by one that has not. The channel may be
unbuffered (limit 0): then a `Lock` and an `Unlock` have to meet.
-/
namespace Gofer.LimitAny

inductive Pc where
  /-- `Lock`: in the `select` -/
  | select
  /-- `Lock`: sent, before `count` is increased -/
  | sent
  /-- `Lock` has returned nil; its goroutine has the lock -/
  | held
  /-- the goroutine has called `Unlock` for it -/
  | over
  /-- `Lock` has returned the error -/
  | timedOut
  /-- `Unlock`: before the receive; `own` says whether it was called by a goroutine for the lock that it has -/
  | unlock (own : Bool)
  /-- `Unlock`: received, before `_count` is increased -/
  | received (own : Bool)
  /-- `Unlock` has returned -/
  | returned (own : Bool)
deriving DecidableEq, Repr

/-- `LimitLock` (lock/lock.go:127-132): the number of elements of the channel, the two counters; and the calls. -/
structure St where
  ch : Nat
  count : BitVec 64
  count' : BitVec 64
  log : List Pc
deriving DecidableEq, Repr

/-- `NewLimitLock` (lock/lock.go:135-138). -/
def new : St := ⟨0, 0, 0, []⟩

inductive Act where
  /-- a call of `Lock` begins -/
  | lock
  /-- the goroutine of call `i`, whose `Lock` has returned nil, calls `Unlock` for it -/
  | unlock (i : Nat)
  /-- a goroutine calls `Unlock` for no lock that it has -/
  | surplus
  | step (i : Nat)
  /-- a `Lock` in its `select` meets an `Unlock` that waits: the value goes from one to the other -/
  | meet (i j : Nat)
  /-- the timeout of a `Lock` has elapsed and the `select` takes that case -/
  | timeout (i : Nat)
deriving DecidableEq, Repr

/-- `Lock` (lock/lock.go:141-149) and `Unlock` (lock/lock.go:152-155), one access to shared state at a time; `limit` is the capacity of the channel. -/
def step (limit : Nat) (s : St) (i : Nat) : Pc → Option St
  | .select => if s.ch < limit then some { s with ch := s.ch + 1, log := s.log.set i .sent } else none
  | .sent => some { s with count := s.count + 1, log := s.log.set i .held }
  | .unlock own => if 0 < s.ch then some { s with ch := s.ch - 1, log := s.log.set i (.received own) } else none
  | .received own => some { s with count' := s.count' + 1, log := s.log.set i (.returned own) }
  | _ => none

/-- The other half of a meeting. -/
def meet (s : St) (i j : Nat) : Pc → Option St
  | .unlock own => some { s with log := (s.log.set i .sent).set j (.received own) }
  | _ => none

def act (limit : Nat) (s : St) : Act → Option St
  | .lock => some { s with log := s.log ++ [.select] }
  | .unlock i => if s.log[i]? = some .held then some { s with log := s.log.set i .over ++ [.unlock true] } else none
  | .surplus => some { s with log := s.log ++ [.unlock false] }
  | .step i => s.log[i]?.bind (step limit s i)
  | .meet i j => if s.ch = 0 ∧ s.log[i]? = some .select then s.log[j]?.bind (meet s i j) else none
  | .timeout i => if s.log[i]? = some .select then some { s with log := s.log.set i .timedOut } else none

def exec (limit : Nat) (s : St) : List Act → Option St
  | [] => some s
  | a :: as => (act limit s a).bind fun t => exec limit t as

/-- `Cc` (lock/lock.go:158-160) while no other call runs. -/
def cc (s : St) : BitVec 64 := s.count - s.count'

end Gofer.LimitAny
