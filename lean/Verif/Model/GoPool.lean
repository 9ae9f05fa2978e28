/-!
# Model of `pool/gopool/gopool.go`

A step machine. The calls of `Go`, `Close` and `TurnOff` are entries of `log`; the function given to the call number `i` of `log` is
task `i`. A step is one access to shared state. Simplifications:

* The mutex is locked only by the `TryLock` in `Go`, which then starts the goroutine `funcn`, and unlocked only when that goroutine
  ends. So there is at most one such goroutine (the dispatcher); `disp = .idle` says that the mutex is free.
* Counters are unbounded integers. `minlimit` is a natural number (`make(chan, n)` panics for a negative one).
* Functions given to `Go` end or panic at any time (`runtime.Goexit` in them is not modelled); a panic that nobody recovers sets
  `crash`, after which nothing happens.
* A send on the unbuffered task queue (`FuncLimit = 0`) would need the dispatcher to be receiving, but the dispatcher is only started
  after a send; so a send on it never goes on.
* The plain field `close` is read and written without synchronisation; steps are taken in one order that all goroutines see.
-/
namespace Gofer.GoPool

/-- The arguments of `NewPoolWithFuncLimit`. -/
structure Cfg where
  minlimit : Nat
  maxArg : Nat
  funcLimit : Nat

/-- `p.maxlimit` (pool/gopool/gopool.go:75-78). -/
def Cfg.maxlimit (c : Cfg) : Nat := if c.maxArg < c.minlimit then c.minlimit else c.maxArg

/-- Where a worker is (`funcn.run`, pool/gopool/gopool.go:31-51, with `put`, 157-164); `d` tells that it is in the deferred function,
after a panic. -/
inductive WPc where
  /-- made, goroutine not started -/
  | new
  /-- in the `select` -/
  | sel
  /-- in `f()` -/
  | run (f : Nat)
  /-- `put`: before `count` is decremented -/
  | put1 (d : Bool)
  /-- `put`: before `_closeflag` is read -/
  | put2 (d : Bool)
  /-- `put`: before `g.pool <- f` -/
  | put3 (d : Bool)
  | dead
deriving DecidableEq, Repr

/-- `funcn` (pool/gopool/gopool.go:17-22); `buf` is the content of the channel `task`. -/
structure Worker where
  id : Nat
  buf : Option Nat := none
  pc : WPc := .new
deriving DecidableEq, Repr

/-- Where the dispatcher is (`funcn`, `_funcn`, pool/gopool/gopool.go:124-155). -/
inductive DPc where
  /-- no dispatcher -/
  | idle
  /-- receiving from `funcnPool` -/
  | range
  /-- before `if g.close` -/
  | chk (f : Nat)
  /-- before `count` is incremented -/
  | cnt (f : Nat)
  /-- making a worker because of `count` -/
  | newId (f : Nat)
  /-- before `g.id > g.minlimit` -/
  | idChk (f : Nat)
  /-- before `g.id` is incremented -/
  | incId (f : Nat)
  /-- receiving from `g.pool` -/
  | wait (f : Nat)
  /-- `add`: before `fc.task <- f` -/
  | add (f w : Nat)
  /-- `add`: before `once.Do` -/
  | once (w : Nat)
  /-- before `tnum` is decremented -/
  | dec
  /-- before `if g.tnum > 0` -/
  | last
  /-- before the deferred `Unlock` -/
  | unlock
deriving DecidableEq, Repr

/-- A goroutine started by `go f()`. -/
inductive FPc where
  | ready
  | run
  | done
deriving DecidableEq, Repr
structure Free where
  task : Nat
  pc : FPc
deriving DecidableEq, Repr

inductive Kind where
  | go
  | close
  | turn (off : Bool)
deriving DecidableEq, Repr
inductive Pc where
  -- `Go` (pool/gopool/gopool.go:85-95)
  | check
  | send
  | inc
  | tryl
  -- `Close` (pool/gopool/gopool.go:103-114)
  | cas
  | setClose
  | cancel
  | closePool
  -- `TurnOff` (pool/gopool/gopool.go:116-122)
  | tchk
  | tset
  | ret
  | panicked
deriving DecidableEq, Repr
structure Call where
  kind : Kind
  pc : Pc
deriving DecidableEq, Repr

/-- `GoPool` (pool/gopool/gopool.go:53-66) and the goroutines. -/
structure St where
  pool : List Nat := []
  poolClosed : Bool := false
  id : Nat := 0
  count : Int := 0
  q : List Nat := []
  qClosed : Bool := false
  tnum : Int := 0
  close : Bool := false
  flag : Bool := false
  cancelled : Bool := false
  /-- the goroutine started by `Close` that closes the queue after ten seconds -/
  timer : Bool := false
  disp : DPc := .idle
  workers : List Worker := []
  free : List Free := []
  log : List Call := []
  /-- the tasks begun so far -/
  started : List Nat := []
  crash : Bool := false
deriving DecidableEq, Repr

/-- `NewPoolWithFuncLimit` (pool/gopool/gopool.go:72-83). -/
def new : St := {}

inductive Act where
  | go
  | close
  | turn (off : Bool)
  /-- the next step of a call -/
  | step (i : Nat)
  | disp
  /-- the next step of a worker; in its `select`, it receives from `task` -/
  | work (w : Nat)
  /-- a worker's `select` takes `ctx.Done()` -/
  | quit (w : Nat)
  /-- the function run by a worker returns, panics -/
  | finish (w : Nat)
  | panic (w : Nat)
  /-- a goroutine `go f()` begins `f`; `f` returns, panics -/
  | free (j : Nat)
  | freeEnd (j : Nat)
  | freePanic (j : Nat)
  /-- ten seconds after `Close` -/
  | timer
deriving DecidableEq, Repr

def St.goto (s : St) (i : Nat) (c : Call) (pc : Pc) : St := { s with log := s.log.set i { c with pc := pc } }
def St.wset (s : St) (w : Nat) (k : Worker) : St := { s with workers := s.workers.set w k }

/-- Calls. -/
def stepCall (cfg : Cfg) (s : St) (i : Nat) (c : Call) : Option St :=
  match c.pc with
  | .check => if s.close then some (St.goto { s with free := s.free ++ [⟨i, .ready⟩] } i c .ret) else some (s.goto i c .send)
  | .send =>
    if s.qClosed then some (s.goto i c .panicked)
    else if s.q.length < cfg.funcLimit then some (St.goto { s with q := s.q ++ [i] } i c .inc)
    else none
  | .inc => some (St.goto { s with tnum := s.tnum + 1 } i c .tryl)
  | .tryl => some (match s.disp with | .idle => St.goto { s with disp := .range } i c .ret | _ => s.goto i c .ret)
  | .cas => if s.flag then some (s.goto i c .ret) else some (St.goto { s with flag := true } i c .setClose)
  | .setClose => some (St.goto { s with close := true } i c .cancel)
  | .cancel => some (St.goto { s with cancelled := true } i c .closePool)
  | .closePool => some (St.goto { s with timer := true, poolClosed := true } i c .ret)
  | .tchk => some (s.goto i c (if s.flag then .ret else .tset))
  | .tset => some (St.goto { s with close := (match c.kind with | .turn off => off | _ => s.close) } i c .ret)
  | .ret => none
  | .panicked => none

/-- The dispatcher. -/
def stepDisp (cfg : Cfg) (s : St) : Option St :=
  match s.disp with
  | .idle => none
  | .range =>
    match s.q with
    | f :: q => some { s with q := q, disp := .chk f }
    | [] => if s.qClosed then some { s with disp := .last } else none
  | .chk f => if s.close then some { s with free := s.free ++ [⟨f, .ready⟩], disp := .dec } else some { s with disp := .cnt f }
  | .cnt f =>
    some { s with count := s.count + 1, disp := if cfg.minlimit < s.count + 1 ∧ s.count + 1 ≤ cfg.maxlimit then .newId f else .idChk f }
  | .newId f => some { s with id := s.id + 1, workers := s.workers ++ [{ id := s.id + 1 }], disp := .add f s.workers.length }
  | .idChk f => some { s with disp := if cfg.minlimit < s.id then .wait f else .incId f }
  | .incId f =>
    if s.id + 1 ≤ cfg.minlimit then
      some { s with id := s.id + 1, workers := s.workers ++ [{ id := s.id + 1 }], disp := .add f s.workers.length }
    else some { s with id := s.id + 1, disp := .wait f }
  | .wait f =>
    match s.pool with
    | w :: p => some { s with pool := p, disp := .add f w }
    -- `t` is nil: `t.add(f)` panics; `Unlock` runs, then `recover`
    | [] => if s.poolClosed then some { s with disp := .unlock } else none
  | .add f w =>
    match s.workers[w]? with
    | none => none
    | some k =>
      match k.buf with
      | none => some { s.wset w { k with buf := some f } with disp := .once w }
      | some _ => none
  | .once w =>
    match s.workers[w]? with
    | none => none
    | some k =>
      match k.pc with
      | .new => some { s.wset w { k with pc := .sel } with disp := .dec }
      | _ => some { s with disp := .dec }
  | .dec => some { s with tnum := s.tnum - 1, disp := if s.tnum - 1 ≤ 0 then .last else .range }
  | .last => some { s with disp := if 0 < s.tnum then .range else .unlock }
  | .unlock => some { s with disp := .idle }

/-- A worker. -/
def stepWork (cfg : Cfg) (s : St) (w : Nat) (k : Worker) : Option St :=
  match k.pc with
  | .sel =>
    match k.buf with
    | some f => some { s.wset w { k with buf := none, pc := .run f } with started := s.started ++ [f] }
    | none => none
  | .put1 d => some { s.wset w { k with pc := .put2 d } with count := s.count - 1 }
  | .put2 d => some (s.wset w { k with pc := if k.id ≤ cfg.minlimit ∧ s.flag = false then .put3 d else .dead })
  | .put3 d =>
    if s.poolClosed then
      -- send on closed channel: recovered by the deferred function, which calls `put` again; not recovered if it came from there
      if d then some { s with crash := true } else some (s.wset w { k with pc := .put1 true })
    else if s.pool.length < cfg.minlimit then some { s.wset w { k with pc := .sel } with pool := s.pool ++ [w] }
    else none
  | .new => none
  | .run _ => none
  | .dead => none

def act (cfg : Cfg) (s : St) (a : Act) : Option St :=
  if s.crash then none else
  match a with
  | .go => some { s with log := s.log ++ [⟨.go, .check⟩] }
  | .close => some { s with log := s.log ++ [⟨.close, .cas⟩] }
  | .turn off => some { s with log := s.log ++ [⟨.turn off, .tchk⟩] }
  | .step i => s.log[i]?.bind (stepCall cfg s i)
  | .disp => stepDisp cfg s
  | .work w => s.workers[w]?.bind (stepWork cfg s w)
  | .quit w => s.workers[w]?.bind fun k => if k.pc = .sel ∧ s.cancelled then some (s.wset w { k with pc := .dead }) else none
  | .finish w => s.workers[w]?.bind fun k => match k.pc with | .run _ => some (s.wset w { k with pc := .put1 false }) | _ => none
  | .panic w => s.workers[w]?.bind fun k => match k.pc with | .run _ => some (s.wset w { k with pc := .put1 true }) | _ => none
  | .free j => s.free[j]?.bind fun g => match g.pc with
    | .ready => some { s with free := s.free.set j { g with pc := .run }, started := s.started ++ [g.task] }
    | _ => none
  | .freeEnd j => s.free[j]?.bind fun g => match g.pc with
    | .run => some { s with free := s.free.set j { g with pc := .done } }
    | _ => none
  | .freePanic j => s.free[j]?.bind fun g => match g.pc with
    | .run => some { s with crash := true }
    | _ => none
  | .timer => if s.timer then some { s with timer := false, qClosed := true } else none

def exec (cfg : Cfg) (s : St) : List Act → Option St
  | [] => some s
  | a :: as => (act cfg s a).bind fun t => exec cfg t as

end Gofer.GoPool
