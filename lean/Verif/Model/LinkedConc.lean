import Verif.Model.LinkedHashMap
import Verif.Spec.Relaxed
/-!
# `LinkedHashMap` (hashmap/linkedhashmap.go) under concurrent use

All methods but `Get` run under `t.mu`; `Get` reads the pointer `t.m`, then loads from that `sync.Map`, with no mutex. `Clear` puts a new `sync.Map`
in place; the maps it replaced stay as they were. Reading `t.m` while `Clear` writes it is a data race in Go; here the pointer is one word that is read old or new.
The entry a `Get` finds is never changed after it is made, so looking into it is part of the load. The iterator's methods are left out.
-/
namespace Gofer.LinkedConc
open Gofer.LinkedHashMap
open Gofer.Spec.Recency (Op Res)
open Gofer.Spec.Linear (Ev)
open Gofer.Spec.Relaxed (Item)

variable {K V : Type} [DecidableEq K]

/-- Where a method inside the mutex is. -/
inductive Loc where
  | start
  | swap (e : Nat)
  | drop (e : Nat)
  | over
  | unkey (e : Nat)

/-- Result of `LoadOrStore` (hashmap/linkedhashmap.go:72-77) given the element that was there; `Put` has none. -/
def putRes (zv : V) (list : GoList (K × V)) (op : Op K V) (pre : Option Nat) : Res K V :=
  match op, pre with
  | .loadOrStore _ _, some e => resVal zv ((list.val e).map Prod.snd)
  | .loadOrStore _ _, none => .val zv false
  | _, _ => .unit

/-- One step of `Put` and `LoadOrStore` (hashmap/linkedhashmap.go:41-53, 60-77). -/
def putStep (zv : V) (op : Op K V) (k : K) (v : V) : Loc → LHM K V → LHM K V × (Loc ⊕ Res K V)
  | .start, t => ({ t with list := (t.list.pushFront (k, v)).1 }, .inl (.swap (t.list.pushFront (k, v)).2))
  | .swap e, t =>
    match t.m.swap k e with
    | (none, m) => ({ t with m := m }, .inl .over)
    | (some pre, m) => ({ t with m := m }, .inl (.drop pre))
  | .drop pre, t => ({ t with list := t.list.remove pre }, .inr (putRes zv t.list op (some pre)))
  | .over, t =>
    if t.count + 1 > t.limit then
      if t.list.back ≠ 0 then ({ t with list := t.list.remove t.list.back, count := t.count + 1 }, .inl (.unkey t.list.back))
      else (t, .inr (putRes zv t.list op none))
    else ({ t with count := t.count + 1 }, .inr (putRes zv t.list op none))
  | .unkey e, t =>
    match t.list.val e with
    | some x => ({ t with m := (t.m.loadAndDelete x.1).2, count := t.count - 1 }, .inr (putRes zv t.list op none))
    | none => ({ t with count := t.count - 1 }, .inr (putRes zv t.list op none))

/-- One step inside the mutex: `Delete` (hashmap/linkedhashmap.go:95-99), `Clear` (131-133) in two steps, the others in one. -/
def lstep (zk : K) (zv : V) : Op K V → Loc → LHM K V → LHM K V × (Loc ⊕ Res K V)
  | .put k v, l, t => putStep zv (.put k v) k v l t
  | .loadOrStore k v, l, t => putStep zv (.loadOrStore k v) k v l t
  | .delete k, .start, t =>
    match t.m.load k with
    | some e => ({ t with list := t.list.remove e }, .inl (.drop e))
    | none => (t, .inr .unit)
  | .delete k, _, t => ({ t with m := t.m.delete k, count := t.count - 1 }, .inr .unit)
  | .clear, .start, t => ({ t with m := AMap.empty }, .inl .over)
  | .clear, _, t => ({ t with list := t.list.init, count := 0 }, .inr .unit)
  | op, _, t => ((step zk zv t op).1, .inr (step zk zv t op).2)

/-- A goroutine; `g1` and `g2` are a `Get` before and after it has read the pointer `t.m` (the number of the map it points to). -/
inductive Pc (K V : Type) where
  | idle
  | wait (id : Nat) (op : Op K V)
  | inn (id : Nat) (op : Op K V) (l : Loc)
  | fin (id : Nat) (op : Op K V) (r : Res K V)
  | out (id : Nat) (op : Op K V) (r : Res K V)
  | g1 (id : Nat) (k : K)
  | g2 (id : Nat) (k : K) (g : Nat)

/-- State: the container, the number of its current `sync.Map`, the maps that were replaced, goroutines, calls and returns seen; `log` is for the proof only. -/
structure St (n : Nat) (K V : Type) where
  t : LHM K V
  gen : Nat
  old : Nat → AMap K Nat
  pc : Fin n → Pc K V
  next : Nat
  hist : List (Ev (Op K V) (Res K V))
  log : List (Item K V)

variable {n : Nat}

/-- Whether a goroutine holds the mutex. -/
def Pc.holds : Pc K V → Bool
  | .inn _ _ _ => true
  | .fin _ _ _ => true
  | _ => false

/-- `Lock` (library) is possible. -/
def free (s : St n K V) : Bool := (List.finRange n).all fun t => !(s.pc t).holds

/-- Assignment to one goroutine. -/
def setPc (s : St n K V) (t : Fin n) (p : Pc K V) : St n K V := { s with pc := fun i => if i = t then p else s.pc i }

/-- What a `Get` gets from map number `g`. -/
def look (s : St n K V) (g : Nat) (k : K) : Option V :=
  match (if g = s.gen then s.t.m else s.old g).load k with
  | some e => (s.t.list.val e).map Prod.snd
  | none => none

/-- For the proof: the effect of a step inside the mutex. -/
def mark (zk : K) (zv : V) (id : Nat) (op : Op K V) (l : Loc) (t : LHM K V) : List (Item K V) :=
  match op, l with
  | .put _ _, .swap _ => [.call id op .unit]
  | .loadOrStore k _, .swap _ => [.call id op (putRes zv t.list op (t.m.load k))]
  | .put _ _, .unkey _ => [.evict id]
  | .loadOrStore _ _, .unkey _ => [.evict id]
  | .put _ _, _ => []
  | .loadOrStore _ _, _ => []
  | .delete k, .start => if (t.m.load k).isSome then [] else [.call id op .unit]
  | .delete _, _ => [.call id op .unit]
  | .clear, .start => [.call id op .unit]
  | .clear, _ => []
  | _, _ => [.call id op (step zk zv t op).2]

/-- For the proof: the `Get`s that hold the pointer `Clear` replaces get what is in the old map now. -/
def pending (zv : V) (s : St n K V) : List (Item K V) :=
  (List.finRange n).filterMap fun t =>
    match s.pc t with
    | .g2 id k g => if g = s.gen then some (.call id (.get k) (resVal zv (get s.t k))) else none
    | _ => none

/-- Whether a step replaces `t.m` (hashmap/linkedhashmap.go:131). -/
def replaces : Op K V → Loc → Bool
  | .clear, .start => true
  | _, _ => false

/-- Actions. -/
inductive Act (n : Nat) (K V : Type) where
  | call (t : Fin n) (op : Op K V)
  | lock (t : Fin n)
  | micro (t : Fin n)
  | unlock (t : Fin n)
  | read (t : Fin n)
  | load (t : Fin n)
  | ret (t : Fin n)

/-- Where a call begins: `Get` takes no mutex. -/
def enter (id : Nat) : Op K V → Pc K V
  | .get k => .g1 id k
  | op => .wait id op

/-- One action. -/
def act (zk : K) (zv : V) (s : St n K V) : Act n K V → Option (St n K V)
  | .call t op =>
    match s.pc t with
    | .idle => some { setPc s t (enter s.next op) with next := s.next + 1, hist := s.hist ++ [.inv s.next op] }
    | _ => none
  | .lock t =>
    match s.pc t with
    | .wait id op => if free s then some (setPc s t (.inn id op .start)) else none
    | _ => none
  | .micro t =>
    match s.pc t with
    | .inn id op l =>
      let p := match (lstep zk zv op l s.t).2 with
        | .inl l' => Pc.inn id op l'
        | .inr r => Pc.fin id op r
      if replaces op l then
        some { setPc s t p with t := (lstep zk zv op l s.t).1, gen := s.gen + 1, old := fun g => if g = s.gen then s.t.m else s.old g,
                                log := s.log ++ (pending zv s ++ mark zk zv id op l s.t) }
      else some { setPc s t p with t := (lstep zk zv op l s.t).1, log := s.log ++ mark zk zv id op l s.t }
    | _ => none
  | .unlock t =>
    match s.pc t with
    | .fin id op r => some (setPc s t (.out id op r))
    | _ => none
  | .read t =>
    match s.pc t with
    | .g1 id k => some (setPc s t (.g2 id k s.gen))
    | _ => none
  | .load t =>
    match s.pc t with
    | .g2 id k g =>
      some { setPc s t (.out id (.get k) (resVal zv (look s g k))) with
        log := if g = s.gen then s.log ++ [.call id (.get k) (resVal zv (look s g k))] else s.log }
    | _ => none
  | .ret t =>
    match s.pc t with
    | .out id _ r => some { setPc s t .idle with hist := s.hist ++ [.res id r] }
    | _ => none

/-- An execution. -/
def exec (zk : K) (zv : V) (s : St n K V) : List (Act n K V) → Option (St n K V)
  | [] => some s
  | a :: as => match act zk zv s a with
    | some s' => exec zk zv s' as
    | none => none

/-- A new map. -/
def init (limit : Int) : St n K V := ⟨LinkedHashMap.new limit, 0, fun _ => AMap.empty, fun _ => .idle, 0, [], []⟩

end Gofer.LinkedConc
