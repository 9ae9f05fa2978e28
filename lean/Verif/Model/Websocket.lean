/-!
# Model of `websocket/wshandle.go`

`golang.org/x/net/websocket` is the environment: `Message.Receive` returns a message or an error at any time, and always returns once the
connection is closed; `Message.Send` may fail. `Handler.err` is read and written without synchronisation in the code: it is modelled as
a sequentially consistent variable. `Send` reads it twice, to compare and to return it; this is one step here, between the two it can change from
one error to another only.
-/
namespace Gofer.Websocket

/-! ## `NewHandler`: what it does with the configuration -/

/-- `strings.HasPrefix`. -/
def hasPrefix (s p : String) : Bool := p.toList.isPrefixOf s.toList

/-- The part of `Config` that decides (websocket/wshandle.go:25-35); `none` is a nil slice. A certificate file is its name. -/
structure Config where
  url : String
  certFiles : Option (List String)
  certBytes : Option (List (List UInt8))

/-- What the system does: reading a file, certificates in PEM data (`AppendCertsFromPEM`; `none` if there is none). -/
structure Sys (Cert : Type) where
  readFile : String → Option (List UInt8)
  pem : List UInt8 → Option (List Cert)

/-- `loadCACertificatesFromBytes` (websocket/wshandle.go:159-167). -/
def loadBytes {Cert : Type} (sys : Sys Cert) : List (List UInt8) → Option (List Cert)
  | [] => some []
  | b :: l =>
    match sys.pem b with
    | none => none
    | some cs => (loadBytes sys l).map (cs ++ ·)
/-- `loadCACertificatesFromFiles` (websocket/wshandle.go:144-157). -/
def loadFiles {Cert : Type} (sys : Sys Cert) : List String → Option (List Cert)
  | [] => some []
  | f :: l =>
    match sys.readFile f with
    | none => none
    | some b =>
      match sys.pem b with
      | none => none
      | some cs => (loadFiles sys l).map (cs ++ ·)

/-- `config.TlsConfig`. `roots` are `RootCAs`. -/
inductive Tls (Cert : Type) where
  /-- no TLS -/
  | plain
  | verify (roots : List Cert)
  /-- `InsecureSkipVerify: true` -/
  | skipVerify
deriving DecidableEq, Repr

/-- `NewHandler` (websocket/wshandle.go:50-74) up to the call of `DialConfig`; `none` is an error. -/
def tlsConfig {Cert : Type} (sys : Sys Cert) (c : Config) : Option (Tls Cert) :=
  if hasPrefix c.url "wss:" then
    match c.certFiles with
    | some fs => (loadFiles sys fs).map .verify
    | none =>
      match c.certBytes with
      | some bs => (loadBytes sys bs).map .verify
      | none => some .skipVerify
  else if !hasPrefix c.url "ws:" then none
  else some .plain

/-! ## The handler at work -/

/-- Errors: "connection is closed", of `Message.Receive`, of `Message.Send`. -/
inductive Err where
  | closed
  | recv (n : Nat)
  | wire
deriving DecidableEq, Repr

/-- Which callbacks are not nil. -/
structure Cb where
  onOpen : Bool
  onMessage : Bool
  onError : Bool
  onClose : Bool
deriving DecidableEq, Repr

/-- `NewHandler` after `DialConfig`. -/
inductive New where
  | start
  /-- in `OnOpen` -/
  | opening
  /-- `go wh.read()` is done -/
  | ready
deriving DecidableEq, Repr

/-- `read`; `e` is the local variable `err`. -/
inductive Rd where
  /-- not started -/
  | off
  /-- `for wh.err == nil` -/
  | check (e : Option Err)
  /-- in `Message.Receive` -/
  | recv
  /-- before `wh.err = err; break` -/
  | setErr (e : Err)
  /-- after the loop, before `go OnError` -/
  | fin (e : Option Err)
  /-- `wh.Close()`: before `wh.err = …` -/
  | closeSet
  /-- `wh.Close()`: before `conn.Close()` -/
  | closeConn
  /-- before `OnClose` -/
  | beforeOnClose
  /-- in `OnClose` -/
  | inOnClose
  | done
deriving DecidableEq, Repr

/-- Calls of `Send` and `Close` by the user. -/
inductive Th where
  /-- `Send`: before `if wh.err != nil` -/
  | sCheck
  /-- before `wh.mux.Lock()` -/
  | sLock
  /-- holding the lock, before `Message.Send` -/
  | sBegin
  /-- in `Message.Send` -/
  | sEnd
  | sDone (r : Option Err)
  /-- `Close`: before `wh.err = …` -/
  | cSet
  /-- before `conn.Close()` -/
  | cConn
  | cDone
deriving DecidableEq, Repr

/-- What can be observed. -/
inductive Ev where
  | openBegin
  | openEnd
  | sendCall (i : Nat)
  | wireBegin (i : Nat)
  | wireEnd (i : Nat)
  | sendRet (i : Nat) (r : Option Err)
  | closeCall (i : Nat)
  | closeRet (i : Nat)
  /-- a message was received from the connection -/
  | received (m : Nat)
  /-- the loop of `read` has ended -/
  | loopEnd
  | onMessage (m : Nat)
  | onError (e : Option Err)
  | onCloseBegin
  | onCloseEnd
deriving DecidableEq, Repr

structure St where
  new : New
  /-- `wh.err` -/
  err : Option Err
  /-- `wh.conn` is closed -/
  connClosed : Bool
  /-- who holds `wh.mux` -/
  mux : Option Nat
  rd : Rd
  ths : List Th
  /-- goroutines `OnMessage`, `OnError` that have not begun -/
  msgs : List Nat
  errs : List (Option Err)
  /-- what happened, last first -/
  log : List Ev
deriving DecidableEq, Repr

def init : St := ⟨.start, none, false, none, .off, [], [], [], []⟩

inductive Act where
  /-- a step of `NewHandler` -/
  | new
  /-- calls of the user -/
  | send
  | close
  /-- a step of a call; `ok` is the result of `Message.Send` where there is one -/
  | th (i : Nat) (ok : Bool)
  /-- a step of `read` that does not wait -/
  | rd
  /-- `Message.Receive` returns; `nonNil` tells whether `byt != nil` -/
  | msg (m : Nat) (nonNil : Bool)
  | fail (n : Nat)
  /-- a goroutine begins -/
  | runMsg (k : Nat)
  | runErr (k : Nat)
deriving DecidableEq, Repr

def St.add (s : St) (e : Ev) : St := { s with log := e :: s.log }
def St.setTh (s : St) (i : Nat) (p : Th) : St := { s with ths := s.ths.set i p }

/-- `NewHandler` (websocket/wshandle.go:80-86). -/
def newStep (cb : Cb) (s : St) : Option St :=
  match s.new with
  | .start => if cb.onOpen then some ({ s with new := .opening }.add .openBegin) else some { s with new := .ready, rd := .check none }
  | .opening => some ({ s with new := .ready, rd := .check none }.add .openEnd)
  | .ready => none

/-- `Send`, `sendws` (websocket/wshandle.go:90-101) and `Close` (103-109). -/
def thStep (s : St) (i : Nat) (ok : Bool) : Option St :=
  match s.ths[i]? with
  | some .sCheck =>
    match s.err with
    | some e => some ((s.setTh i (.sDone (some e))).add (.sendRet i (some e)))
    | none => some (s.setTh i .sLock)
  | some .sLock => if s.mux = none then some { s.setTh i .sBegin with mux := some i } else none
  | some .sBegin => some ((s.setTh i .sEnd).add (.wireBegin i))
  | some .sEnd =>
    let r := if ok then none else some Err.wire
    some ((({ s.setTh i (.sDone r) with mux := none }).add (.wireEnd i)).add (.sendRet i r))
  | some .cSet => some { s.setTh i .cConn with err := some .closed }
  | some .cConn => some ({ s.setTh i .cDone with connClosed := true }.add (.closeRet i))
  | _ => none

/-- `read` (websocket/wshandle.go:115-134). -/
def rdStep (cb : Cb) (s : St) : Option St :=
  match s.rd with
  | .check e => if s.err = none then some { s with rd := .recv } else some ({ s with rd := .fin e }.add .loopEnd)
  | .setErr e => some ({ s with err := some e, rd := .fin (some e) }.add .loopEnd)
  | .fin e => some { s with rd := .closeSet, errs := if cb.onError then s.errs ++ [e] else s.errs }
  | .closeSet => some { s with err := some .closed, rd := .closeConn }
  | .closeConn => some { s with connClosed := true, rd := .beforeOnClose }
  | .beforeOnClose => if cb.onClose then some ({ s with rd := .inOnClose }.add .onCloseBegin) else some { s with rd := .done }
  | .inOnClose => some ({ s with rd := .done }.add .onCloseEnd)
  | _ => none

def step (cb : Cb) (s : St) : Act → Option St
  | .new => newStep cb s
  | .send => if s.new = .start then none else some ({ s with ths := s.ths ++ [Th.sCheck] }.add (.sendCall s.ths.length))
  | .close => if s.new = .start then none else some ({ s with ths := s.ths ++ [Th.cSet] }.add (.closeCall s.ths.length))
  | .th i ok => thStep s i ok
  | .rd => rdStep cb s
  | .msg m nonNil =>
    if s.rd = .recv then
      if nonNil && cb.onMessage then some ({ s with rd := .check none, msgs := s.msgs ++ [m] }.add (.received m))
      else some { s with rd := .check none }
    else none
  | .fail n => if s.rd = .recv then some { s with rd := .setErr (.recv n) } else none
  | .runMsg k =>
    match s.msgs[k]? with
    | some m => some ({ s with msgs := s.msgs.eraseIdx k }.add (.onMessage m))
    | none => none
  | .runErr k =>
    match s.errs[k]? with
    | some e => some ({ s with errs := s.errs.eraseIdx k }.add (.onError e))
    | none => none

def exec (cb : Cb) : St → List Act → Option St
  | s, [] => some s
  | s, a :: as => (step cb s a).bind fun t => exec cb t as

/-- Nothing can go on by itself: a goroutine may wait in `Message.Receive` only while the connection is open, and the callbacks have ended. -/
def quiescent (cb : Cb) (s : St) : Prop :=
  step cb s .new = none ∧ step cb s .rd = none ∧ (s.rd = .recv → s.connClosed = false) ∧ (∀ i ok, step cb s (.th i ok) = none) ∧ s.msgs = [] ∧ s.errs = []

end Gofer.Websocket
