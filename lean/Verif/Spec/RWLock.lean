import Verif.Spec.Race
/-!
# Goroutines that wait for mutexes

`sync.RWMutex` as its documentation has it: a writer first announces itself, which needs that no other writer has done so; from then on no reader gets the lock; the writer gets it when
the readers have left. (After an `Unlock` Go lets the waiting readers in before the next writer; here anyone may be first.) `sync.Mutex` is an `RWMutex` without readers.
-/
namespace Gofer.RWLock
open Gofer.Race (Act upd)

variable {M X V : Type}

/-- What the goroutines have still to do; of each mutex the announced or holding writer, whether it holds the mutex, and the readers. -/
structure Sys (M X V : Type) where
  thr : List (List (Act M X V))
  pend : M → Option Nat
  act : M → Bool
  rds : M → List Nat

/-- Nobody holds a mutex. -/
def Sys.init (scripts : List (List (Act M X V))) : Sys M X V := ⟨scripts, fun _ => none, fun _ => false, fun _ => []⟩

/-- A step of goroutine `i`; `none` when it is blocked or has finished. -/
def Sys.step [DecidableEq M] (s : Sys M X V) (i : Nat) : Option (Sys M X V) :=
  match s.thr[i]? with
  | none => none
  | some [] => none
  | some (a :: l) =>
    match a with
    | .lock m =>
      if s.pend m = none then some { s with pend := upd s.pend m (some i) }
      else if s.pend m = some i ∧ s.act m = false ∧ s.rds m = [] then some { s with thr := s.thr.set i l, act := upd s.act m true }
      else none
    | .unlock m =>
      if s.pend m = some i ∧ s.act m = true then
        some { s with thr := s.thr.set i l, pend := upd s.pend m none, act := upd s.act m false }
      else none
    | .rlock m => if s.pend m = none then some { s with thr := s.thr.set i l, rds := upd s.rds m (i :: s.rds m) } else none
    | .runlock m => if i ∈ s.rds m then some { s with thr := s.thr.set i l, rds := upd s.rds m ((s.rds m).erase i) } else none
    | _ => some { s with thr := s.thr.set i l }

/-- A schedule. -/
def Sys.run [DecidableEq M] : Sys M X V → List Nat → Option (Sys M X V)
  | s, [] => some s
  | s, i :: l => (s.step i).bind fun s' => Sys.run s' l

/-- Nobody can do anything. -/
def Sys.Stuck [DecidableEq M] (s : Sys M X V) : Prop := ∀ i, s.step i = none

/-- Goroutine `i` has done all it had to do. -/
def Sys.Done (s : Sys M X V) (i : Nat) : Prop := s.thr[i]? = some [] ∨ s.thr[i]? = none

/-- Whatever the schedule, it comes to an end, and then every goroutine has finished. -/
def Returns [DecidableEq M] (scripts : List (List (Act M X V))) : Prop :=
  ∀ sched s, (Sys.init scripts).run sched = some s →
    sched.length ≤ 2 * (scripts.map List.length).sum ∧ (s.Stuck → ∀ i, s.Done i)

end Gofer.RWLock
