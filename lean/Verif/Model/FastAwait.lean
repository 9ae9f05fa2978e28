import Verif.Model.Await

/-!
# Model of `lock/fastawait.go`

A step machine as in Model/Await.lean: every call of `Wait` (and `WaitWithCancel`), `CloseAndPut` and `Close` is an entry of `log`;
one step is one access to shared state. The Bloom filter is the list of ids added to it and a function `has` telling what
`Contains` answers for given contents (Model/Bloom.lean: C30 says that `has l x` holds for every `x` in `l`; nothing is assumed
here); `Add` and `Contains` are taken as one step each. `loops` is the number of retries (30 in the code). Deferred calls run in
reverse order: closing the channel, then `del`, then `recoverpanic`; a channel is made when the call begins, but is not known to
anybody else before it is put into the map.
-/
namespace Gofer.FastAwait
open Gofer.Await (Id Chan Res Kind upd)

inductive Pc where
  /-- before `db.Put` -/
  | wPut (ch : Nat)
  /-- in the `select` or the receive -/
  | select (ch : Nat)
  /-- timed out or cancelled, before the deferred `close(ch)` -/
  | wClose (ch : Nat)
  /-- `del`: before `bf.Add` -/
  | wAdd (r : Res)
  /-- `del`: before `db.Del` -/
  | wDel (r : Res)
  /-- `Wait` has returned -/
  | wRet (r : Res)
  /-- before `db.Get`, with so many retries left -/
  | get (n : Nat)
  /-- before `isDel` -/
  | isDel (n : Nat)
  /-- before `db.Del` -/
  | del (ch : Nat)
  /-- before `ch <- v` -/
  | send (ch : Nat)
  /-- before the deferred `close(ch)`; whether a panic is under way -/
  | close (ch : Nat) (panic : Bool)
  /-- `CloseAndPut` / `Close` has returned, with an error or nil -/
  | ret (err : Bool)
deriving DecidableEq, Repr

structure Call (V : Type) where
  kind : Kind V
  idx : Id
  pc : Pc
deriving DecidableEq, Repr

/-- `FastAwait` (lock/fastawait.go:19-22), all channels ever made, and the calls. -/
structure St (V : Type) where
  m : Id → Option Nat
  bf : List Id
  chans : List Chan
  log : List (Call V)

/-- `NewFastAwait` (lock/fastawait.go:24-30). -/
def new (V : Type) : St V := ⟨fun _ => none, [], [], []⟩

inductive Act (V : Type) where
  | wait (timed ctx : Bool) (idx : Id)
  | put (idx : Id) (v : V)
  | close (idx : Id)
  | step (i : Nat)
  /-- the timer fires and the `select` takes that case -/
  | timeout (i : Nat)
  /-- the context is done and the `select` takes that case -/
  | cancel (i : Nat)
deriving DecidableEq, Repr

variable {V : Type}

def St.goto (s : St V) (i : Nat) (c : Call V) (pc : Pc) : St V := { s with log := s.log.set i { c with pc := pc } }

/-- One step of a call. -/
def step (has : List Id → Id → Bool) (s : St V) (i : Nat) (c : Call V) : Option (St V) :=
  match c.pc with
  -- `Wait`, `WaitWithCancel` (lock/fastawait.go:41-93)
  | .wPut ch => some (St.goto { s with m := upd s.m c.idx (some ch) } i c (.select ch))
  | .select ch =>
    match s.chans[ch]? with
    | none => none
    | some k =>
      match k.buf with
      | some p => some (St.goto { s with chans := s.chans.set ch { k with buf := none } } i c (.wAdd (.got p)))
      | none => if k.closed then some (s.goto i c (.wAdd .zero)) else none
  | .wClose ch =>
    match s.chans[ch]? with
    | none => none
    | some k => some (St.goto { s with chans := s.chans.set ch { k with closed := true } } i c (.wAdd .error))
  -- `del` (lock/fastawait.go:32-35)
  | .wAdd r => some (St.goto { s with bf := c.idx :: s.bf } i c (.wDel r))
  | .wDel r => some (St.goto { s with m := upd s.m c.idx none } i c (.wRet r))
  | .wRet _ => none
  -- `CloseAndPut`, `Close` (lock/fastawait.go:95-124)
  | .get n =>
    match s.m c.idx with
    | some ch => some (s.goto i c (.del ch))
    | none => some (s.goto i c (.isDel n))
  -- `isDel` (lock/fastawait.go:37-39) and `loop > 0`
  | .isDel n =>
    if has s.bf c.idx then some (s.goto i c (.ret false))
    else match n with
      | 0 => some (s.goto i c (.ret false))
      | n + 1 => some (s.goto i c (.get n))
  | .del ch =>
    some (St.goto { s with m := upd s.m c.idx none } i c (match c.kind with | .put _ => .send ch | _ => .close ch false))
  | .send ch =>
    match s.chans[ch]? with
    | none => none
    | some k =>
      if k.closed then some (s.goto i c (.close ch true))
      else match k.buf with
        | none => some (St.goto { s with chans := s.chans.set ch { k with buf := some i } } i c (.close ch false))
        | some _ => none
  | .close ch panic =>
    match s.chans[ch]? with
    | none => none
    | some k =>
      if k.closed then some (s.goto i c (.ret true))
      else some (St.goto { s with chans := s.chans.set ch { k with closed := true } } i c (.ret panic))
  | .ret _ => none

def act (has : List Id → Id → Bool) (loops : Nat) (s : St V) : Act V → Option (St V)
  -- `make(chan T, 1)` (lock/fastawait.go:43, 67)
  | .wait timed ctx idx => some { s with chans := s.chans ++ [{ idx := idx }], log := s.log ++ [⟨.wait timed ctx, idx, .wPut s.chans.length⟩] }
  | .put idx v => some { s with log := s.log ++ [⟨.put v, idx, .get loops⟩] }
  | .close idx => some { s with log := s.log ++ [⟨.close, idx, .get loops⟩] }
  | .step i => s.log[i]?.bind (step has s i)
  | .timeout i => s.log[i]?.bind fun c =>
    match c.kind, c.pc with
    | .wait true _, .select ch => some (s.goto i c (.wClose ch))
    | _, _ => none
  | .cancel i => s.log[i]?.bind fun c =>
    match c.kind, c.pc with
    | .wait true true, .select ch => some (s.goto i c (.wClose ch))
    | _, _ => none

def exec (has : List Id → Id → Bool) (loops : Nat) (s : St V) : List (Act V) → Option (St V)
  | [] => some s
  | a :: as => (act has loops s a).bind fun t => exec has loops t as

end Gofer.FastAwait
