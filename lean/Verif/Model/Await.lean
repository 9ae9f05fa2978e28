/-!
# Model of `lock/await.go`

A step machine: every call of `Wait` (and `WaitWithCancel`, `SyncWait`), `CloseAndPut` and `Close` is an entry of `log`; any
number of goroutines may be running. One step is one access to shared state. `ix` gives the mutex of an id (`Numlock`, see
Model/Lock.lean, C59: for a positive `muxlimit` every id has one). A channel of capacity 1 is a buffer with at most one value
and a flag `closed`; the buffer holds the number of the `CloseAndPut` call that sent the value. `loops` is the number of
retries (1000 in the code). Deferred calls run in reverse order: closing the channel, then `Del`, then `recoverpanic`.
-/
namespace Gofer.Await

abbrev Id := BitVec 64

/-- A `chan T` of capacity 1, with the id it was made for. -/
structure Chan where
  idx : Id
  buf : Option Nat := none
  closed : Bool := false
deriving DecidableEq, Repr

/-- What a `Wait` returns: the value sent by call `p` and nil; the zero value and nil (the channel was closed); an error. -/
inductive Res where
  | got (p : Nat)
  | zero
  | error
deriving DecidableEq, Repr

inductive Pc where
  /-- `Get`: before `mux.Lock` -/
  | wEnter
  /-- `Get`: before `m.Get` -/
  | wLocked
  /-- `Get`: channel made, before `m.Put` -/
  | wPut (ch : Nat)
  /-- `Get`: before `mux.Unlock` -/
  | wUnlock (ch : Nat)
  /-- in the `select` or the receive -/
  | select (ch : Nat)
  /-- timed out or cancelled, before the deferred `close(ch)` -/
  | wClose (ch : Nat)
  /-- before the deferred `m.Del` -/
  | wDel (r : Res)
  /-- `Wait` has returned -/
  | wRet (r : Res)
  /-- before `m.Has`, with so many retries left -/
  | has (n : Nat)
  /-- before `mux.Lock` -/
  | lock
  /-- before `m.Get` -/
  | get
  /-- before `m.Del` -/
  | del (ch : Nat)
  /-- before `ch <- v` -/
  | send (ch : Nat)
  /-- before `close(ch)` -/
  | close (ch : Nat)
  /-- before the deferred `mux.Unlock`; whether a panic is under way -/
  | unlock (err : Bool)
  /-- `CloseAndPut` / `Close` has returned, with an error or nil -/
  | ret (err : Bool)
deriving DecidableEq, Repr

inductive Kind (V : Type) where
  /-- `Wait`; whether `timeout > 0`; whether it has a context (`WaitWithCancel`) -/
  | wait (timed ctx : Bool)
  | put (v : V)
  | close
deriving DecidableEq, Repr

structure Call (V : Type) where
  kind : Kind V
  idx : Id
  pc : Pc
deriving DecidableEq, Repr

/-- `Await` (lock/await.go:18-21), all channels ever made, and the calls. -/
structure St (V : Type) where
  m : Id → Option Nat
  lk : Nat → Bool
  chans : List Chan
  log : List (Call V)

/-- `NewAwait` (lock/await.go:24-26). -/
def new (V : Type) : St V := ⟨fun _ => none, fun _ => false, [], []⟩

inductive Act (V : Type) where
  | wait (timed ctx : Bool) (idx : Id)
  | put (idx : Id) (v : V)
  | close (idx : Id)
  | step (i : Nat)
  /-- the timer fires and the `select` takes that case -/
  | timeout (i : Nat)
  /-- the context is done and the `select` takes that case -/
  | cancel (i : Nat)
deriving DecidableEq, Repr

variable {V : Type}

def upd {A B : Type} [DecidableEq A] (f : A → B) (a : A) (b : B) : A → B := fun x => if x = a then b else f x

def St.goto (s : St V) (i : Nat) (c : Call V) (pc : Pc) : St V := { s with log := s.log.set i { c with pc := pc } }

/-- One step of a call. -/
def step (ix : Id → Nat) (s : St V) (i : Nat) (c : Call V) : Option (St V) :=
  match c.pc with
  -- `Get` (lock/await.go:29-38)
  | .wEnter => if s.lk (ix c.idx) then none else some (St.goto { s with lk := upd s.lk (ix c.idx) true } i c .wLocked)
  | .wLocked =>
    match s.m c.idx with
    | some ch => some (s.goto i c (.wUnlock ch))
    | none => some (St.goto { s with chans := s.chans ++ [{ idx := c.idx }] } i c (.wPut s.chans.length))
  | .wPut ch => some (St.goto { s with m := upd s.m c.idx (some ch) } i c (.wUnlock ch))
  | .wUnlock ch => some (St.goto { s with lk := upd s.lk (ix c.idx) false } i c (.select ch))
  -- `WaitWithCancel`, `Wait`, `SyncWait` (lock/await.go:87-164)
  | .select ch =>
    match s.chans[ch]? with
    | none => none
    | some k =>
      match k.buf with
      | some p => some (St.goto { s with chans := s.chans.set ch { k with buf := none } } i c (.wDel (.got p)))
      | none => if k.closed then some (s.goto i c (.wDel .zero)) else none
  | .wClose ch =>
    match s.chans[ch]? with
    | none => none
    | some k => some (St.goto { s with chans := s.chans.set ch { k with closed := true } } i c (.wDel .error))
  | .wDel r => some (St.goto { s with m := upd s.m c.idx none } i c (.wRet r))
  | .wRet _ => none
  -- `Close` and `CloseAndPut` (lock/await.go:46-84)
  | .has n =>
    if (s.m c.idx).isSome then some (s.goto i c .lock)
    else match n with
      | 0 => some (s.goto i c (.ret false))
      | n + 1 => some (s.goto i c (.has n))
  | .lock => if s.lk (ix c.idx) then none else some (St.goto { s with lk := upd s.lk (ix c.idx) true } i c .get)
  | .get =>
    match s.m c.idx with
    | some ch => some (s.goto i c (.del ch))
    | none => some (s.goto i c (.unlock false))
  | .del ch =>
    some (St.goto { s with m := upd s.m c.idx none } i c (match c.kind with | .put _ => .send ch | _ => .close ch))
  | .send ch =>
    match s.chans[ch]? with
    | none => none
    | some k =>
      if k.closed then some (s.goto i c (.unlock true))
      else match k.buf with
        | none => some (St.goto { s with chans := s.chans.set ch { k with buf := some i } } i c (.close ch))
        | some _ => none
  | .close ch =>
    match s.chans[ch]? with
    | none => none
    | some k =>
      if k.closed then some (s.goto i c (.unlock true))
      else some (St.goto { s with chans := s.chans.set ch { k with closed := true } } i c (.unlock false))
  | .unlock err => some (St.goto { s with lk := upd s.lk (ix c.idx) false } i c (.ret err))
  | .ret _ => none

def act (ix : Id → Nat) (loops : Nat) (s : St V) : Act V → Option (St V)
  | .wait timed ctx idx => some { s with log := s.log ++ [⟨.wait timed ctx, idx, .wEnter⟩] }
  | .put idx v => some { s with log := s.log ++ [⟨.put v, idx, .has loops⟩] }
  | .close idx => some { s with log := s.log ++ [⟨.close, idx, .has loops⟩] }
  | .step i => s.log[i]?.bind (step ix s i)
  | .timeout i => s.log[i]?.bind fun c =>
    match c.kind, c.pc with
    | .wait true _, .select ch => some (s.goto i c (.wClose ch))
    | _, _ => none
  | .cancel i => s.log[i]?.bind fun c =>
    match c.kind, c.pc with
    | .wait true true, .select ch => some (s.goto i c (.wClose ch))
    | _, _ => none

def exec (ix : Id → Nat) (loops : Nat) (s : St V) : List (Act V) → Option (St V)
  | [] => some s
  | a :: as => (act ix loops s a).bind fun t => exec ix loops t as

end Gofer.Await
