import Verif.Model.Bloom
/-!
# Concurrent calls of `Add` and `Contains` of `cache/bloom.go`, over any number of generations

A step machine: one step is one access to shared state. The arrays are on a heap, as a goroutine can go on with an array that is not
in `bits` any more. Simplified, as in `Model/Bloom.lean`: `numCount` does not wrap, the hash functions are arbitrary; the words of a slice
header are read and written together; steps are taken in one order that all goroutines see.
-/
namespace Gofer.BloomConc
open Gofer.Bloom (phase)

/-- `hashCount`, `arraySize`, `expectedItems` (cache/bloom.go:19-27); `pos i x` is `hash(x, seeds[i]) % (arraySize * 64)`. -/
structure Cfg (I : Type) where
  k : Nat
  W : Nat
  E : Nat
  pos : Nat → I → Nat

/-- Where a call is. -/
inductive Pc where
  /-- `Add`: before `numCount.Add(1)` -/
  | inc
  /-- the head of the loop, and `numCount.Load()` in `getBitIndex` -/
  | next
  /-- before the first `bits[index] == nil` -/
  | chk
  /-- before `mux.Lock()` -/
  | lock
  /-- with the mutex, before the second `bits[index] == nil` -/
  | mk
  /-- before `bits[rmIndex] = nil` -/
  | rm
  /-- before `mux.Unlock()` -/
  | unlock
  /-- before `bits[id]` is read -/
  | slice
  /-- before the word is read -/
  | word
  /-- `Add`: before the word is written -/
  | store
  /-- `Contains`: before `bits[prevId]` is read -/
  | slice2
  /-- `Contains`: before the word of the former generation is read -/
  | word2
  | ret
deriving DecidableEq, Repr

/-- One call. `n` is the count that `getBitIndex` has read, `arr` the array, `w` the word it holds. `num` is a history variable that no step
reads: for `Add` its number (the count that its `numCount.Add(1)` gave), for `Contains` the count when it began. -/
structure Call (I : Type) where
  add : Bool
  item : I
  num : Nat
  pc : Pc
  i : Nat := 0
  n : Nat := 0
  arr : Nat := 0
  w : UInt64 := 0
  res : Bool := false

/-- `BloomFilter` (cache/bloom.go:19-27) and the calls; `bits j` for `j < 3` is the address of the array, or nil. -/
structure St (I : Type) where
  heap : List (List UInt64)
  bits : Nat → Option Nat
  count : Nat
  mu : Bool
  log : List (Call I)

/-- `NewBloomFilter` (cache/bloom.go:30-52): its call of `getBitIndex` makes the first array. -/
def new {I : Type} (c : Cfg I) : St I := ⟨[List.replicate c.W 0], fun j => if j = (phase 0 c.E).1 then some 0 else none, 0, false, []⟩

inductive Act (I : Type) where
  | add (x : I)
  | contains (x : I)
  | step (i : Nat)

variable {I : Type}

def St.put (s : St I) (i : Nat) (c : Call I) : St I := { s with log := s.log.set i c }
def setBits (b : Nat → Option Nat) (i : Nat) (v : Option Nat) : Nat → Option Nat := fun j => if j = i then v else b j

/-- The word of an array. -/
def wordAt (heap : List (List UInt64)) (a q : Nat) : UInt64 := ((heap[a]?).getD []).getD (q / 64) 0

/-- The array with a word of it written. -/
def storeAt (heap : List (List UInt64)) (a q : Nat) (w : UInt64) : List (List UInt64) := heap.set a (((heap[a]?).getD []).set (q / 64) w)

/-- `1 << bitIndex`. -/
def bit (q : Nat) : UInt64 := 1 <<< (q % 64).toUInt64

/-- The next step of call `i` (`Add` cache/bloom.go:77-84, `setBit` 59-64, `Contains` 87-96, `testBit` 67-74, `getBitIndex` 98-119); `none` is
blocked. A panic (an array that is nil, a remainder by zero) is recovered: `Add` returns, `testBit` and `Contains` give `false`. -/
def step (cfg : Cfg I) (s : St I) (i : Nat) (c : Call I) : Option (St I) :=
  let q := cfg.pos c.i c.item
  match c.pc with
  | .inc => some (St.put { s with count := s.count + 1 } i { c with num := s.count + 1, pc := .next })
  | .next =>
    if cfg.k ≤ c.i then some (s.put i { c with res := !c.add, pc := .ret })
    else if cfg.W = 0 then some (s.put i { c with res := false, pc := .ret })
    else some (s.put i { c with n := s.count, pc := .chk })
  | .chk => some (s.put i { c with pc := if s.bits (phase c.n cfg.E).1 = none then .lock else .slice })
  | .lock => if s.mu then none else some (St.put { s with mu := true } i { c with pc := .mk })
  | .mk =>
    if s.bits (phase c.n cfg.E).1 = none then
      some (St.put { s with heap := s.heap ++ [List.replicate cfg.W 0], bits := setBits s.bits (phase c.n cfg.E).1 (some s.heap.length) } i { c with pc := .rm })
    else some (s.put i { c with pc := .rm })
  | .rm => some (St.put { s with bits := setBits s.bits (phase c.n cfg.E).2.1 none } i { c with pc := .unlock })
  | .unlock => some (St.put { s with mu := false } i { c with pc := .slice })
  | .slice =>
    match s.bits (phase c.n cfg.E).1 with
    | none => some (s.put i { c with res := false, pc := .ret })
    | some a => some (s.put i { c with arr := a, pc := .word })
  | .word =>
    if c.add then some (s.put i { c with w := wordAt s.heap c.arr q, pc := .store })
    else if wordAt s.heap c.arr q &&& bit q != 0 then some (s.put i { c with i := c.i + 1, pc := .next })
    else some (s.put i { c with pc := .slice2 })
  | .store => some (St.put { s with heap := storeAt s.heap c.arr q (c.w ||| bit q) } i { c with i := c.i + 1, pc := .next })
  | .slice2 =>
    match s.bits (phase c.n cfg.E).2.2 with
    | none => some (s.put i { c with res := false, pc := .ret })
    | some a => some (s.put i { c with arr := a, pc := .word2 })
  | .word2 =>
    if wordAt s.heap c.arr q &&& bit q != 0 then some (s.put i { c with i := c.i + 1, pc := .next })
    else some (s.put i { c with res := false, pc := .ret })
  | .ret => none

def act (cfg : Cfg I) (s : St I) : Act I → Option (St I)
  | .add x => some { s with log := s.log ++ [{ add := true, item := x, num := s.count, pc := .inc }] }
  | .contains x => some { s with log := s.log ++ [{ add := false, item := x, num := s.count, pc := .next }] }
  | .step i => (s.log[i]?).bind (step cfg s i)

def exec (cfg : Cfg I) (s : St I) : List (Act I) → Option (St I)
  | [] => some s
  | a :: as => (act cfg s a).bind fun t => exec cfg t as

end Gofer.BloomConc
