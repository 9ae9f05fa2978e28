import Mathlib.Logic.Relation
/-!
# Data races in the sense of the Go memory model

Executions are interleavings of the actions of goroutines, numbered by `Nat`. `M` are the mutexes, `X` the memory locations (variables, fields, words;
channels too), `V` their values. An execution holds a data race when two accesses of different goroutines to one location, at least one of them a write and not both
atomic, are not ordered by happens-before (https://go.dev/ref/mem).
-/
namespace Gofer.Race

/-- What a goroutine does: mutex operations, plain reads and writes, atomic reads and read-modify-writes (`sync/atomic`, and the operations of
`sync.Map` on one key), an operation on a channel, the start of a goroutine. -/
inductive Act (M X V : Type) where
  | lock (m : M)
  | unlock (m : M)
  | rlock (m : M)
  | runlock (m : M)
  | rd (x : X) (v : V)
  | wr (x : X) (v : V)
  | aload (x : X) (v : V)
  | armw (x : X) (old new : V)
  | chan (x : X)
  | go (t : Nat)
  deriving DecidableEq

variable {M X V : Type}

/-- The location accessed, whether the access writes, whether it is atomic. -/
def Act.access : Act M X V → Option (X × Bool × Bool)
  | .rd x _ => some (x, false, false)
  | .wr x _ => some (x, true, false)
  | .aload x _ => some (x, false, true)
  | .armw x _ _ => some (x, true, true)
  | _ => none

/-- Mutexes (writer, readers) and memory. -/
structure St (M X V : Type) where
  w : M → Option Nat
  r : M → List Nat
  mem : X → V

/-- All mutexes free. -/
def St.init (mem : X → V) : St M X V := ⟨fun _ => none, fun _ => [], mem⟩

def upd {A B : Type} [DecidableEq A] (f : A → B) (a : A) (b : B) : A → B := fun a' => if a' = a then b else f a'

/-- One action of goroutine `t`; `none` when it is not possible: the mutex is not free, the value read is not the one in memory. -/
def St.step [DecidableEq M] [DecidableEq X] [DecidableEq V] (s : St M X V) (t : Nat) : Act M X V → Option (St M X V)
  | .lock m => if s.w m = none ∧ s.r m = [] then some { s with w := upd s.w m (some t) } else none
  | .unlock m => if s.w m = some t then some { s with w := upd s.w m none } else none
  | .rlock m => if s.w m = none then some { s with r := upd s.r m (t :: s.r m) } else none
  | .runlock m => if t ∈ s.r m then some { s with r := upd s.r m ((s.r m).erase t) } else none
  | .rd x v => if s.mem x = v then some s else none
  | .wr x v => some { s with mem := upd s.mem x v }
  | .aload x v => if s.mem x = v then some s else none
  | .armw x a b => if s.mem x = a then some { s with mem := upd s.mem x b } else none
  | .chan _ => some s
  | .go _ => some s

abbrev Trace (M X V : Type) := List (Nat × Act M X V)

/-- The state after a trace; `none` when the trace is not possible. -/
def exec [DecidableEq M] [DecidableEq X] [DecidableEq V] : St M X V → Trace M X V → Option (St M X V)
  | s, [] => some s
  | s, (t, a) :: tr => (s.step t a).bind fun s' => exec s' tr

/-- Action `b` is synchronised by an earlier action `a`: unlocking before locking (readers do not order readers), operations on one channel,
starting a goroutine before its actions. -/
def syncs (b : Nat × Act M X V) : Nat × Act M X V → Prop
  | (_, .unlock m) => b.2 = .lock m ∨ b.2 = .rlock m
  | (_, .runlock m) => b.2 = .lock m
  | (_, .chan x) => b.2 = .chan x
  | (_, .go t) => b.1 = t
  | _ => False

/-- The action is an atomic write of `x`. -/
def Act.awrites (x : X) (a : Act M X V) : Prop := ∃ o n, a = .armw x o n

/-- Edges of happens-before: the order of one goroutine, synchronisation, and an atomic operation that observes an atomic write. -/
def edge (tr : Trace M X V) (i j : Nat) : Prop :=
  i < j ∧ ∃ a b, tr[i]? = some a ∧ tr[j]? = some b ∧
    (a.1 = b.1 ∨ syncs b a ∨
      ∃ x, a.2.awrites x ∧ (∃ w, b.2.access = some (x, w, true)) ∧
        ∀ k, i < k → k < j → ∀ c, tr[k]? = some c → ¬ c.2.awrites x)

/-- Happens before. -/
def hb (tr : Trace M X V) : Nat → Nat → Prop := Relation.TransGen (edge tr)

/-- The actions at `i < j` are a data race on `x`. -/
def RaceAt (tr : Trace M X V) (x : X) (i j : Nat) : Prop :=
  i < j ∧ ∃ a b, tr[i]? = some a ∧ tr[j]? = some b ∧ a.1 ≠ b.1 ∧
    (∃ wa ta wb tb, a.2.access = some (x, wa, ta) ∧ b.2.access = some (x, wb, tb) ∧ (wa ∨ wb) ∧ ¬(ta ∧ tb)) ∧
    ¬ hb tr i j

/-- There is a data race on `x`. -/
def RaceOn (tr : Trace M X V) (x : X) : Prop := ∃ i j, RaceAt tr x i j

/-- The actions of goroutine `t`. -/
def proj (t : Nat) (tr : Trace M X V) : List (Act M X V) := (tr.filter (fun e => e.1 == t)).map Prod.snd

/-- Every goroutine makes calls whose actions are in `S`, one after another; the last one may be under way. -/
def Follows (S : List (Act M X V) → Prop) (tr : Trace M X V) : Prop :=
  ∀ t, ∃ calls : List (List (Act M X V)), (∀ c ∈ calls, S c) ∧ proj t tr <+: calls.flatten

/-- New memory: each location of `C` is written at most once. -/
def FreshAlloc (C : X → Prop) (tr : Trace M X V) : Prop :=
  ∀ x, C x → ∀ (i j t u : Nat) (v v' : V), tr[i]? = some (t, .wr x v) → tr[j]? = some (u, .wr x v') → i = j

/-- Goroutines that make calls out of `S` on a new object, in any number and any interleaving, have no data race on `x`. `C` are the locations that are allocated
by the calls. -/
def RaceFreeOn [DecidableEq M] [DecidableEq X] [DecidableEq V] (S : List (Act M X V) → Prop) (mem : X → V) (C : X → Prop) (x : X) : Prop :=
  ∀ tr s, exec (St.init mem) tr = some s → FreshAlloc C tr → Follows S tr → ¬ RaceOn tr x

end Gofer.Race
