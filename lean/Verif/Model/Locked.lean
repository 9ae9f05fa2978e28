import Verif.Spec.Linear
/-!
# Objects whose methods run under a mutex

The frame of `LimitMap` (hashmap/limitmap.go), `TreeMap` (hashmap/treemap.go), `LruCache` (cache/lrucache.go), `Consistenthash`
(hashmap/consistenthash.go) and the segments of `LimitHashMap` (hashmap/limithashmap.go): every method takes a mutex for reading or for writing,
does its work in steps between which other goroutines run, and releases the mutex when it returns (`defer`).
The object has parts, each with its own mutex (one part for all but `LimitHashMap`). A mutex (library) lets in a writer if nobody is inside and a reader
if no writer is; that waiting writers keep out new readers is left out, which allows more executions.
-/
namespace Gofer.Locked
open Gofer.Spec.Linear (Ev)

/-- How methods are carried out: the part they use, whether they take the mutex for reading, and their steps on local state and the part. -/
structure Obj (ι S Op R L : Type) where
  idx : Op → ι
  rd : Op → Bool
  start : Op → L
  step : Op → L → S → S × (L ⊕ R)

/-- A goroutine: outside, waiting for the mutex, inside, done but still inside, or about to return. -/
inductive Pc (Op R L : Type) where
  | idle
  | wait (id : Nat) (op : Op)
  | inn (id : Nat) (op : Op) (l : L)
  | fin (id : Nat) (op : Op) (r : R)
  | out (id : Nat) (op : Op) (r : R)

/-- State: the parts, the goroutines, the number of the next call, what was seen; `log` is not part of the program, it is for the proof:
the methods in the order in which they were done. -/
structure St (n : Nat) (ι S Op R L : Type) where
  st : ι → S
  pc : Fin n → Pc Op R L
  next : Nat
  hist : List (Ev Op R)
  log : List (Nat × Op × R)

variable {n : Nat} {ι S Op R L : Type} [DecidableEq ι]

/-- The operation a goroutine holds a mutex for. -/
def Pc.holds : Pc Op R L → Option Op
  | .inn _ op _ => some op
  | .fin _ op _ => some op
  | _ => none

/-- `Lock` or `RLock` (library) for `op` is possible. -/
def free (o : Obj ι S Op R L) (s : St n ι S Op R L) (op : Op) : Bool :=
  (List.finRange n).all fun t =>
    match (s.pc t).holds with
    | none => true
    | some op' => o.idx op' != o.idx op || (o.rd op && o.rd op')

/-- Assignment to one goroutine. -/
def setPc (s : St n ι S Op R L) (t : Fin n) (p : Pc Op R L) : St n ι S Op R L := { s with pc := fun i => if i = t then p else s.pc i }

/-- Assignment to one part. -/
def setSt (s : St n ι S Op R L) (k : ι) (x : S) : St n ι S Op R L := { s with st := fun i => if i = k then x else s.st i }

/-- Actions. -/
inductive Act (n : Nat) (Op : Type) where
  | call (t : Fin n) (op : Op)
  | lock (t : Fin n)
  | micro (t : Fin n)
  | unlock (t : Fin n)
  | ret (t : Fin n)

/-- One action; `none` if it is not possible. -/
def act (o : Obj ι S Op R L) (s : St n ι S Op R L) : Act n Op → Option (St n ι S Op R L)
  | .call t op =>
    match s.pc t with
    | .idle => some { setPc s t (.wait s.next op) with next := s.next + 1, hist := s.hist ++ [.inv s.next op] }
    | _ => none
  | .lock t =>
    match s.pc t with
    | .wait id op => if free o s op then some (setPc s t (.inn id op (o.start op))) else none
    | _ => none
  | .micro t =>
    match s.pc t with
    | .inn id op l =>
      match o.step op l (s.st (o.idx op)) with
      | (x, .inl l') => some (setPc (setSt s (o.idx op) x) t (.inn id op l'))
      | (x, .inr r) => some { setPc (setSt s (o.idx op) x) t (.fin id op r) with log := s.log ++ [(id, op, r)] }
    | _ => none
  | .unlock t =>
    match s.pc t with
    | .fin id op r => some (setPc s t (.out id op r))
    | _ => none
  | .ret t =>
    match s.pc t with
    | .out id _ r => some { setPc s t .idle with hist := s.hist ++ [.res id r] }
    | _ => none

/-- An execution. -/
def exec (o : Obj ι S Op R L) (s : St n ι S Op R L) : List (Act n Op) → Option (St n ι S Op R L)
  | [] => some s
  | a :: as => match act o s a with
    | some s' => exec o s' as
    | none => none

/-- Before any call. -/
def init (s0 : ι → S) : St n ι S Op R L := ⟨s0, fun _ => .idle, 0, [], []⟩

/-- Some steps of one method alone. -/
inductive Runs (o : Obj ι S Op R L) (op : Op) (s : S) (l : L) : S → L ⊕ R → Prop where
  | refl : Runs o op s l s (.inl l)
  | step {s' l'} : Runs o op s l s' (.inl l') → Runs o op s l (o.step op l' s').1 (o.step op l' s').2

/-- The steps of every method together do what `ap` says, and methods that take the mutex for reading do not write. -/
structure Impl (o : Obj ι S Op R L) (ap : Op → S → S × R) : Prop where
  done : ∀ op s s' r, Runs o op s (o.start op) s' (.inr r) → ap op s = (s', r)
  ro : ∀ op, o.rd op = true → ∀ l s, (o.step op l s).1 = s

/-- Results of a sequence of methods done one after the other. -/
def results (idx : Op → ι) (ap : Op → S → S × R) : (ι → S) → List Op → List R
  | _, [] => []
  | s, op :: os =>
    (ap op (s (idx op))).2 :: results idx ap (fun i => if i = idx op then (ap op (s (idx op))).1 else s i) os

/-- Methods done in one step. -/
def atomic (idx : Op → ι) (rd : Op → Bool) (ap : Op → S → S × R) : Obj ι S Op R Unit :=
  ⟨idx, rd, fun _ => (), fun op _ s => ((ap op s).1, .inr (ap op s).2)⟩

end Gofer.Locked
