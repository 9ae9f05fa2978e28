/-!
# Model of `gosignal/gosignal.go`

A process with any number of calls of `ListenSignalEvent`. `os/signal` as documented: a signal goes to every channel registered for it, without
waiting (it is dropped where the channel is full), and has its default action if no channel is registered for it.
-/
namespace Gofer.Gosignal

/-- The goroutine of `ListenSignalEvent` (gosignal/gosignal.go:18-21). -/
inductive Pc where
  /-- `<-sigChan` -/
  | wait
  /-- before `signalfunc(sig)` -/
  | got (g : Nat)
  /-- in `signalfunc` -/
  | calling (g : Nat)
  | done
deriving DecidableEq, Repr

/-- One call of `ListenSignalEvent`: the signals given (none means all, as `signal.Notify` has it) and its channel of capacity 1. -/
structure Lis where
  sigs : List Nat
  buf : List Nat
  pc : Pc
deriving DecidableEq, Repr

/-- Capacity of `sigChan` (gosignal/gosignal.go:16). -/
def cap : Nat := 1

inductive Ev where
  | listen (i : Nat)
  /-- a signal arrives -/
  | signal (g : Nat)
  /-- it has its default action -/
  | dflt (g : Nat)
  /-- `signalfunc` of a listener is called, returns -/
  | call (i g : Nat)
  | ret (i : Nat)
deriving DecidableEq, Repr

structure St where
  lis : List Lis
  /-- what happened, last first -/
  log : List Ev
deriving DecidableEq, Repr

def init : St := ⟨[], []⟩

/-- `signal.Notify` without signals registers for all. -/
def wants (sigs : List Nat) (g : Nat) : Bool := sigs.isEmpty || sigs.contains g

/-- A signal sent to one channel, without waiting. -/
def notify (g : Nat) (l : Lis) : Lis := if wants l.sigs g && decide (l.buf.length < cap) then { l with buf := l.buf ++ [g] } else l

inductive Act where
  | listen (sigs : List Nat)
  | signal (g : Nat)
  | step (i : Nat)
deriving DecidableEq, Repr

/-- The goroutine `i`. -/
def goStep (s : St) (i : Nat) : Option St :=
  match s.lis[i]? with
  | none => none
  | some l =>
    match l.pc with
    | .wait =>
      match l.buf with
      | g :: b => some { s with lis := s.lis.set i { l with buf := b, pc := .got g } }
      | [] => none
    | .got g => some { lis := s.lis.set i { l with pc := .calling g }, log := .call i g :: s.log }
    | .calling _ => some { lis := s.lis.set i { l with pc := .done }, log := .ret i :: s.log }
    | .done => none

def step (s : St) : Act → Option St
  | .listen sigs => some { lis := s.lis ++ [⟨sigs, [], .wait⟩], log := .listen s.lis.length :: s.log }
  | .signal g =>
    some { lis := s.lis.map (notify g), log := if s.lis.any (fun l => wants l.sigs g) then .signal g :: s.log else .dflt g :: .signal g :: s.log }
  | .step i => goStep s i

def exec : St → List Act → Option St
  | s, [] => some s
  | s, a :: as => (step s a).bind fun t => exec t as

end Gofer.Gosignal
