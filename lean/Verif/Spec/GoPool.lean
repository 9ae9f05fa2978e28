import Verif.Model.GoPool

/-! # Terms in which the properties of `GoPool` are stated -/
namespace Gofer.GoPool

/-- How many functions are running. -/
def running (s : St) : Nat :=
  s.workers.countP (fun k => match k.pc with | .run _ => true | _ => false) + s.free.countP (fun g => match g.pc with | .run => true | _ => false)

/-- Call `i` is a `Go` whose function the pool has taken: it is past the send to the queue, or past `go f()`. -/
def Accepted (s : St) (i : Nat) : Prop := ∃ c, s.log[i]? = some c ∧ c.kind = .go ∧ (c.pc = .inc ∨ c.pc = .tryl ∨ c.pc = .ret)

/-- A new call of `Go`, `Close` or `TurnOff`. -/
def isCall : Act → Bool
  | .go | .close | .turn _ => true
  | _ => false

/-- Nothing more happens unless somebody calls `Go`, `Close` or `TurnOff` (or ten seconds pass): no goroutine can make a step, and no
function is running. -/
def Quiescent (cfg : Cfg) (s : St) : Prop := ∀ a, isCall a = false → a ≠ .timer → act cfg s a = none

/-- The run contains no call of `Close` and `TurnOff`. -/
def NoClose (as : List Act) : Prop := ∀ a ∈ as, a ≠ .close ∧ ∀ off, a ≠ .turn off

/-- In this run no `Go` does its `TryLock` while the dispatcher is between its last look at `tnum` and its `Unlock`. -/
def NoMiss (cfg : Cfg) : St → List Act → Prop
  | _, [] => True
  | s, a :: as => (∀ (i : Nat) (c : Call), a = .step i → s.log[i]? = some c → c.pc = .tryl → s.disp ≠ .unlock) ∧
      ∀ t, act cfg s a = some t → NoMiss cfg t as

/-- A moment at which `Close` does no harm: the dispatcher is not between its look at `close` and the hand-over of a task to a worker, no
worker has a task in its channel that it has not begun, and no `TurnOff` is between its look at the flag and its write. -/
def Calm (s : St) : Prop :=
  (match s.disp with | .idle | .range | .chk _ | .dec | .last | .unlock => True | _ => False) ∧
  (∀ k ∈ s.workers, k.buf = none) ∧ ∀ c ∈ s.log, c.pc ≠ .tset

/-- The accepted functions that have not begun. -/
def taken : Option Call → Bool
  | some ⟨.go, .inc⟩ | some ⟨.go, .tryl⟩ | some ⟨.go, .ret⟩ => true
  | _ => false
def unstarted (s : St) : List Nat := (List.range s.log.length).filter fun i => taken s.log[i]? && !s.started.contains i

end Gofer.GoPool
