/-!
# Model of `fastio` (fastio/file.go, fastio/fw.go)

A step machine. Every call of `WriteSync` and `Write` is an entry of `log`; any number of goroutines may be running. One step
is one access to shared state (sequentially consistent interleaving). The file is one opened by `Open` (`O_APPEND`), written
by nobody else. `cap` is the capacity of the channel `m.ch` (`1<<16` in fastio/fw.go:38).

Simplified: counters and offsets are natural numbers (no wrap at 2^31 calls in flight or 2^63 bytes); `file.Write` is one
step, as `os.File` holds its write lock; a blocked `Lock` does not keep readers out; `recoverable` has nothing to recover.
-/
namespace Gofer.Fastio

/-- Where a call is. -/
inductive Pc where
  /-- before `atomic.AddInt32(&m.cc, 1)` -/
  | enter
  /-- fast path: waiting in `Lock` / `RLock` -/
  | lock
  /-- fast path: before `m.wc > 0` -/
  | check
  /-- fast path: before `file.Write(bs)` -/
  | write
  /-- fast path: `n` bytes written, before the offset is read and advanced -/
  | add (n : Nat)
  /-- before `Unlock` / `RUnlock` -/
  | unlock
  /-- slow path: before `atomic.AddInt32(&m.wc, 1)` -/
  | inc
  /-- slow path: before `m.ch <- wd` -/
  | send
  /-- slow path: before the test of `m.ioend` at `START` -/
  | test
  /-- slow path: before `TryLock` -/
  | tryLock
  /-- slow path of `Write`: before the second test of `m.ioend` -/
  | test2
  /-- slow path of `WriteSync`: in the `select` -/
  | wait
  /-- `ioWrite`: before `m.wc == 0` -/
  | ioEnter
  /-- `ioWrite`: before `m.ioend = false` -/
  | ioSet
  /-- `ioWrite`: before the receive -/
  | ioRecv
  /-- `ioWrite`: in `bw.Write` for the data of call `x` -/
  | ioAdd (x : Nat)
  /-- `ioWrite`: before `atomic.AddInt32(&m.wc, -1)` -/
  | ioDec
  /-- `ioWrite`: before `m.ioend = true` -/
  | ioEnd
  /-- `ioWrite`: before `bw.Flush()` -/
  | ioFlush
  /-- `ioWrite`: running the deferred `close(wd.done)` -/
  | ioClose
  /-- before the deferred `atomic.AddInt32(&m.cc, -1)` -/
  | dec
  /-- returned -/
  | ret
deriving DecidableEq, Repr

/-- One call and its `writeData` (fastio/fw.go:22-26). `arg` is what the slice held when the call was made, `data` what it
holds now; `off` is `wd.offset` or the result; `bw` and `wds` are the local `bufio.Writer` and the deferred closes of its
`ioWrite`, `ioErr` the error that returns; `err` is the error the call returns. -/
structure Call where
  sync : Bool
  arg : List UInt8
  data : List UInt8
  fast : Bool := false
  pc : Pc := .enter
  off : Nat := 0
  done : Bool := false
  bw : List UInt8 := []
  wds : List Nat := []
  ioErr : Bool := false
  err : Bool := false
deriving DecidableEq, Repr

/-- `mwriter` and `fileHandle` (fastio/fw.go:28-35, fastio/file.go:41-46). `w` and `r` are the state of the `RWMutex`: locked,
and number of read locks. `order` is a history variable that no step reads: the calls whose data went to the file or to a
`bufio.Writer`, oldest first. -/
structure St where
  file : List UInt8
  offset : Nat
  cc : Nat := 0
  wc : Nat := 0
  ioend : Bool := true
  w : Bool := false
  r : Nat := 0
  ch : List Nat := []
  log : List Call := []
  order : List Nat := []
deriving DecidableEq, Repr

/-- `New` (fastio/file.go:31-39) and `newWriter` (fastio/fw.go:37-39): the offset is the end of the file. -/
def newFile (content : List UInt8) : St := { file := content, offset := content.length }

/-- What can happen. -/
inductive Act where
  /-- a call of `WriteSync` (`sync`) or `Write` -/
  | start (sync : Bool) (bs : List UInt8)
  /-- the next step of call `i` -/
  | step (i : Nat)
  /-- the `time.After` case of the `select` of call `i` -/
  | timeout (i : Nat)
  /-- the `bufio.Writer` of call `i` writes `k` bytes to the file, inside `bw.Write` -/
  | spill (i k : Nat)
  /-- the file write that call `i` is about to do fails after `k` bytes -/
  | fail (i k : Nat)
  /-- the caller of the returned call `i` puts other data into its slice -/
  | reuse (sync : Bool) (i : Nat) (d : List UInt8)
deriving DecidableEq, Repr

/-- Put call `i` to `pc`. -/
def goto (s : St) (i : Nat) (c : Call) (pc : Pc) : St := { s with log := s.log.set i { c with pc } }

/-- `atomic.AddInt32(&m.cc, 1) <= 1` (fastio/fw.go:43, 79). -/
def stepEnter (s : St) (i : Nat) (c : Call) : St :=
  if s.cc + 1 ≤ 1 then { s with cc := s.cc + 1, log := s.log.set i { c with fast := true, pc := .lock } }
  else { s with cc := s.cc + 1, log := s.log.set i { c with fast := false, pc := .inc } }

/-- `m.mu.Lock()` in `WriteSync`, `m.mu.RLock()` in `Write` (fastio/fw.go:44, 80); `none` is blocked. -/
def stepLock (s : St) (i : Nat) (c : Call) : Option St :=
  if c.sync then
    if !s.w && s.r == 0 then some (goto { s with w := true } i c .check) else none
  else
    if !s.w then some (goto { s with r := s.r + 1 } i c .check) else none

/-- `Unlock` or `RUnlock` (fastio/fw.go:45, 63, 81, 97). -/
def stepUnlock (s : St) (i : Nat) (c : Call) : St :=
  if c.fast && !c.sync then goto { s with r := s.r - 1 } i c .dec else goto { s with w := false } i c .dec

/-- `m.mu.TryLock()` (fastio/fw.go:59, 93). -/
def stepTryLock (s : St) (i : Nat) (c : Call) : St :=
  if !s.w && s.r == 0 then goto { s with w := true } i c .ioEnter
  else goto s i c (if c.sync then .wait else .test2)

/-- Where `ioWrite` returns to without error (fastio/fw.go:47-50, 60-63, 83-85, 94-97). -/
def ioRet (c : Call) : Pc := if c.fast then .write else .unlock

/-- The receive and the offset in the loop of `ioWrite` (fastio/fw.go:111-116): the data goes to `bw`. -/
def stepRecv (s : St) (i : Nat) (c : Call) : Option St :=
  match s.ch with
  | [] => none
  | x :: ch =>
    match s.log[x]? with
    | none => none
    | some d =>
      let log := s.log.set x { d with off := s.offset }
      match log[i]? with
      | none => none
      | some c => some { s with
          ch
          order := s.order ++ [x]
          log := log.set i { c with bw := c.bw ++ d.data, wds := if d.sync then x :: c.wds else c.wds, pc := .ioAdd x } }

/-- The deferred functions of `ioWrite` (fastio/fw.go:113), the last first. A fast path call drops the error
(fastio/fw.go:47, 83); a slow path call returns it at once, without `Unlock` (fastio/fw.go:60-62, 94-96). -/
def stepClose (s : St) (i : Nat) (c : Call) : Option St :=
  match c.wds with
  | x :: wds =>
    match s.log[x]? with
    | none => none
    | some d =>
      let log := s.log.set x { d with done := true }
      match log[i]? with
      | none => none
      | some c => some { s with log := log.set i { c with wds } }
  | [] =>
    if c.ioErr && !c.fast then some { s with log := s.log.set i { c with err := true, pc := .dec } }
    else some (goto s i c (ioRet c))

/-- The next step of call `i` (fastio/fw.go:41-127); `none` is blocked. -/
def step (cap : Nat) (s : St) (i : Nat) (c : Call) : Option St :=
  match c.pc with
  | .enter => some (stepEnter s i c)
  | .lock => stepLock s i c
  | .check => some (goto s i c (if 0 < s.wc then .ioEnter else .write))
  | .write => some { s with file := s.file ++ c.data, order := s.order ++ [i], log := s.log.set i { c with pc := .add c.data.length } }
  | .add n => some { s with
      offset := s.offset + n
      log := s.log.set i { c with off := if c.sync then s.offset else c.off, pc := .unlock } }
  | .unlock => some (stepUnlock s i c)
  | .inc => some (goto { s with wc := s.wc + 1 } i c .send)
  | .send => if s.ch.length < cap then some (goto { s with ch := s.ch ++ [i] } i c .test) else none
  | .test => some (goto s i c (if s.ioend then .tryLock else if c.sync then .wait else .test2))
  | .tryLock => some (stepTryLock s i c)
  | .test2 => some (goto s i c (if s.ioend then .test else .dec))
  | .wait => if c.done then some (goto s i c .dec) else none
  | .ioEnter => some (goto s i c (if s.wc = 0 then ioRet c else .ioSet))
  | .ioSet => some (goto { s with ioend := false } i c .ioRecv)
  | .ioRecv => stepRecv s i c
  | .ioAdd x =>
    match s.log[x]? with
    | none => none
    | some d => some (goto { s with offset := s.offset + d.data.length } i c .ioDec)
  | .ioDec => some (goto { s with wc := s.wc - 1 } i c (if s.wc - 1 = 0 then .ioEnd else .ioRecv))
  | .ioEnd => some (goto { s with ioend := true } i c .ioFlush)
  | .ioFlush => some { s with file := s.file ++ c.bw, log := s.log.set i { c with bw := [], pc := .ioClose } }
  | .ioClose => stepClose s i c
  | .dec => some (goto { s with cc := s.cc - 1 } i c .ret)
  | .ret => none

/-- `bufio.Writer` passing on the first `k` bytes it holds, inside `bw.Write` (fastio/fw.go:116). -/
def spill (s : St) (i : Nat) (c : Call) (k : Nat) : Option St :=
  match c.pc with
  | .ioAdd _ => some { s with file := s.file ++ c.bw.take k, log := s.log.set i { c with bw := c.bw.drop k } }
  | _ => none

/-- A failing write: of the fast path (fastio/fw.go:50, 85), in `bw.Write` (fastio/fw.go:116-118), in `bw.Flush`
(fastio/fw.go:125). What the `bufio.Writer` still held is lost. -/
def fail (s : St) (i : Nat) (c : Call) (k : Nat) : Option St :=
  match c.pc with
  | .write => some { s with
      file := s.file ++ c.data.take k
      log := s.log.set i { c with err := true, pc := .add (c.data.take k).length } }
  | .ioAdd _ => some { s with file := s.file ++ c.bw.take k, log := s.log.set i { c with bw := [], ioErr := true, pc := .ioClose } }
  | .ioFlush => some { s with file := s.file ++ c.bw.take k, log := s.log.set i { c with bw := [], ioErr := true, pc := .ioClose } }
  | _ => none

/-- One event; `none` if it cannot happen now. -/
def act (cap : Nat) (s : St) : Act → Option St
  | .start sync bs => some { s with log := s.log ++ [{ sync, arg := bs, data := bs }] }
  | .step i => (s.log[i]?).bind (step cap s i)
  | .timeout i => (s.log[i]?).bind fun c => if c.pc = .wait then some (goto s i c .test) else none
  | .spill i k => (s.log[i]?).bind fun c => spill s i c k
  | .fail i k => (s.log[i]?).bind fun c => fail s i c k
  | .reuse sync i d => (s.log[i]?).bind fun c =>
      if c.pc = .ret ∧ c.sync = sync ∧ d.length = c.data.length then some { s with log := s.log.set i { c with data := d } } else none

/-- A list of events. -/
def exec (cap : Nat) (s : St) : List Act → Option St
  | [] => some s
  | a :: as => (act cap s a).bind fun s => exec cap s as

/-- Neither an I/O error, nor a caller of `Write` that puts other data into its slice afterwards. -/
def Clean : Act → Prop
  | .fail .. => False
  | .reuse sync .. => sync = true
  | _ => True

end Gofer.Fastio
