import Verif.Model.AMap

/-!
# Model of `Numlock`, `Strlock` and `LimitLock` (lock/lock.go)

Step machines: every attempt to get a lock is an entry of `log`; any number of goroutines may be running. A goroutine that has
got a lock gives it back when it likes, with the key it got it with.

`sync.Mutex` and `sync.RWMutex` are library models: `Lock` of an `RWMutex` first announces itself (which keeps new readers
out), then waits for the readers; a `sync.Mutex` is one without readers. `TryLock` and `TryRLock` are one step.
-/
namespace Gofer.Lock

/-- The map of mutexes made by `NewNumLock` and `NewStrlock` (lock/lock.go:28-34, 66-72): the key `i` holds the mutex made in
turn `i`. -/
def newTable (muxNum : BitVec 64) : AMap (BitVec 64) Nat :=
  (List.range muxNum.toInt.toNat).foldl (fun m i => m.store (BitVec.ofNat 64 i) i) AMap.empty

/-- The mutex for a number: `lockm.Get(int64(u % uint64(muxNum)))`. `none` is a panic: a division by zero, or a nil mutex
(lock/lock.go:38, 45, 55). -/
def mutexAt (muxNum u : BitVec 64) : Option Nat := if muxNum = 0 then none else (newTable muxNum).load (u.umod muxNum)

/-- The mutex of a key of `Numlock` (lock/lock.go:38, 45, 55). -/
def numMutex (muxNum key : BitVec 64) : Option Nat := mutexAt muxNum key

/-- The mutex of a key of `Strlock`; `hash` is `util.Hash64` (lock/lock.go:76-77, 84-85, 95-96, 102-103, 110-111, 121-122). -/
def strMutex (hash : List UInt8 → BitVec 64) (muxNum : BitVec 64) (key : List UInt8) : Option Nat := mutexAt muxNum (hash key)

/-- A `sync.RWMutex` (library): a writer has announced itself or holds it; the number of readers. -/
structure Mutex where
  w : Bool := false
  r : Nat := 0
deriving DecidableEq, Repr

inductive Pc where
  /-- before the lock is asked for, or blocked there -/
  | enter
  /-- `Lock`: announced, waiting for the readers -/
  | announced
  /-- the lock has been given -/
  | held
  /-- `TryLock` / `TryRLock` has returned false -/
  | failed
  /-- the lock has been given back -/
  | released
  /-- a nil mutex, a division by zero, or `Unlock` of a mutex that is not locked -/
  | panic
deriving DecidableEq, Repr

/-- An attempt: the key, for writing or reading, and whether a `Try` call. -/
structure Call (K : Type) where
  key : K
  write : Bool
  try_ : Bool
  pc : Pc := .enter
deriving DecidableEq, Repr

structure St (K : Type) where
  mu : Nat → Mutex
  log : List (Call K)

/-- New locks, all free. -/
def new (K : Type) : St K := ⟨fun _ => {}, []⟩

inductive Act (K : Type) where
  /-- a call of `Lock`, `TryLock`, `RLock` or `TryRLock` begins -/
  | start (key : K) (write try_ : Bool)
  /-- call `i` takes a step -/
  | step (i : Nat)
  /-- the goroutine of call `i` calls `Unlock` / `RUnlock` -/
  | unlock (i : Nat)
deriving DecidableEq, Repr

variable {K : Type}

/-- `s` with mutex `m` and call `i` changed. -/
def St.upd (s : St K) (m : Nat) (x : Mutex) (i : Nat) (c : Call K) : St K :=
  ⟨fun n => if n = m then x else s.mu n, s.log.set i c⟩

/-- One step of a call, with the mutex it works on (lock/lock.go:37-51, 75-91, 101-117). -/
def step (ix : K → Option Nat) (s : St K) (i : Nat) (c : Call K) : Option (St K) :=
  match ix c.key with
  | none =>
    match c.pc with
    | .enter => some { s with log := s.log.set i { c with pc := .panic } }
    | _ => none
  | some m =>
    let x := s.mu m
    match c.pc with
    | .enter =>
      if c.write then
        if c.try_ then
          if x.w = false ∧ x.r = 0 then some (s.upd m { x with w := true } i { c with pc := .held })
          else some (s.upd m x i { c with pc := .failed })
        else
          if x.w then none else some (s.upd m { x with w := true } i { c with pc := .announced })
      else
        if x.w then
          if c.try_ then some (s.upd m x i { c with pc := .failed }) else none
        else some (s.upd m { x with r := x.r + 1 } i { c with pc := .held })
    | .announced => if x.r = 0 then some (s.upd m x i { c with pc := .held }) else none
    | _ => none

/-- `Unlock` and `RUnlock` (lock/lock.go:54-57, 94-98, 120-124) by a goroutine that holds the lock. -/
def unlock (ix : K → Option Nat) (s : St K) (i : Nat) (c : Call K) : Option (St K) :=
  match c.pc with
  | .held =>
    match ix c.key with
    | none => some { s with log := s.log.set i { c with pc := .panic } }
    | some m =>
      let x := s.mu m
      if c.write then
        if x.w then some (s.upd m { x with w := false } i { c with pc := .released })
        else some (s.upd m x i { c with pc := .panic })
      else
        if x.r = 0 then some (s.upd m x i { c with pc := .panic })
        else some (s.upd m { x with r := x.r - 1 } i { c with pc := .released })
  | _ => none

def act (ix : K → Option Nat) (s : St K) : Act K → Option (St K)
  | .start key write try_ => some { s with log := s.log ++ [⟨key, write, try_, .enter⟩] }
  | .step i => s.log[i]?.bind (step ix s i)
  | .unlock i => s.log[i]?.bind (unlock ix s i)

def exec (ix : K → Option Nat) (s : St K) : List (Act K) → Option (St K)
  | [] => some s
  | a :: as => (act ix s a).bind fun t => exec ix t as

/-! ## `LimitLock` -/

namespace Limit

inductive Pc where
  /-- `Lock`: in the `select` -/
  | select
  /-- `Lock`: sent, before `count` is increased -/
  | sent
  /-- `Lock` has returned nil -/
  | held
  /-- `Lock` has returned the error -/
  | timedOut
  /-- `Unlock`: before the receive -/
  | unlocking
  /-- `Unlock`: received, before `_count` is increased -/
  | received
  /-- `Unlock` has returned -/
  | released
  /-- `Cc`: before `count` is read -/
  | ccStart
  /-- `Cc`: `count` read -/
  | ccRead (count : BitVec 64)
  /-- `Cc` has returned -/
  | ccRet (v : BitVec 64)
deriving DecidableEq, Repr

/-- `LimitLock` (lock/lock.go:127-132): the number of elements of the channel, the two counters; and the calls. -/
structure St where
  ch : Nat
  count : BitVec 64
  count' : BitVec 64
  log : List Pc
deriving DecidableEq, Repr

/-- `NewLimitLock` (lock/lock.go:135-138). -/
def new : St := ⟨0, 0, 0, []⟩

inductive Act where
  /-- a call of `Lock` begins -/
  | lock
  /-- a call of `Cc` begins -/
  | cc
  | step (i : Nat)
  /-- the timeout of a `Lock` has elapsed and the `select` takes that case -/
  | timeout (i : Nat)
  /-- the goroutine of call `i`, whose `Lock` has returned nil, calls `Unlock` -/
  | unlock (i : Nat)
deriving DecidableEq, Repr

/-- `Lock` (lock/lock.go:141-149), `Unlock` (lock/lock.go:152-155) and `Cc` (lock/lock.go:158-160), one access to shared state
at a time; `limit` is the capacity of the channel. -/
def step (limit : Nat) (s : St) (i : Nat) : Pc → Option St
  | .select => if s.ch < limit then some { s with ch := s.ch + 1, log := s.log.set i .sent } else none
  | .sent => some { s with count := s.count + 1, log := s.log.set i .held }
  | .unlocking => if 0 < s.ch then some { s with ch := s.ch - 1, log := s.log.set i .received } else none
  | .received => some { s with count' := s.count' + 1, log := s.log.set i .released }
  | .ccStart => some { s with log := s.log.set i (.ccRead s.count) }
  | .ccRead n => some { s with log := s.log.set i (.ccRet (n - s.count')) }
  | _ => none

def act (limit : Nat) (s : St) : Act → Option St
  | .lock => some { s with log := s.log ++ [.select] }
  | .cc => some { s with log := s.log ++ [.ccStart] }
  | .step i => s.log[i]?.bind (step limit s i)
  | .timeout i => if s.log[i]? = some .select then some { s with log := s.log.set i .timedOut } else none
  | .unlock i => if s.log[i]? = some .held then some { s with log := s.log.set i .unlocking } else none

def exec (limit : Nat) (s : St) : List Act → Option St
  | [] => some s
  | a :: as => (act limit s a).bind fun t => exec limit t as

/-- `LockCount` (lock/lock.go:163-165). -/
def lockCount (s : St) : BitVec 64 := s.count

end Limit
end Gofer.Lock
