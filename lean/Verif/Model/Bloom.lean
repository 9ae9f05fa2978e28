import Verif.Spec.Bloom

/-!
# Model of `cache/bloom.go`

`maphash.Bytes(seed_i, item)` is an arbitrary function `hash i item`. `numCount` is a natural number
(no wrap-around below 2^64 Adds) and `3 * expectedItems + 1 < 2^64`. The constructor's floating-point
sizing is not modelled: `hashCount`, `arraySize` and `expectedItems` are arbitrary.
-/
namespace Gofer.Bloom
open Gofer.Spec.Bloom (Op)
variable {I : Type}

/-- `BloomFilter` (cache/bloom.go:19-27). `none` is a nil slice. -/
structure BF where
  b0 : Option (List UInt64)
  b1 : Option (List UInt64)
  b2 : Option (List UInt64)
  hashCount : Nat
  numCount : Nat
  arraySize : Nat
  expectedItems : Nat

/-- `bf.bits[i]`. -/
def BF.bits (bf : BF) : Nat → Option (List UInt64)
  | 0 => bf.b0
  | 1 => bf.b1
  | _ => bf.b2

/-- `bf.bits[i] = v`. -/
def BF.setBits (bf : BF) (i : Nat) (v : Option (List UInt64)) : BF :=
  match i with
  | 0 => { bf with b0 := v }
  | 1 => { bf with b1 := v }
  | _ => { bf with b2 := v }

/-- The choice of `index, rmIndex, prevIndex` (cache/bloom.go:99-107). -/
def phase (numCount expectedItems : Nat) : Nat × Nat × Nat :=
  let f := numCount % (expectedItems * 3 + 1)
  if f < expectedItems then (0, 1, 2)
  else if f < expectedItems * 2 then (1, 2, 0)
  else (2, 0, 1)

/-- `getBitIndex` (cache/bloom.go:98-119), run alone: the filter after it and `(index, prevIndex)`. -/
def getBitIndex (bf : BF) : BF × Nat × Nat :=
  match phase bf.numCount bf.expectedItems with
  | (index, rmIndex, prevIndex) =>
    match bf.bits index with
    | none => ((bf.setBits index (some (List.replicate bf.arraySize 0))).setBits rmIndex none, index, prevIndex)
    | some _ => (bf, index, prevIndex)

/-- `setBit` (cache/bloom.go:59-64). The word index is in range (`index < 64 * arraySize`). -/
def setBit (bf : BF) (index : Nat) : BF :=
  match getBitIndex bf with
  | (bf, id, _) =>
    match bf.bits id with
    | some w => bf.setBits id (some (w.set (index / 64) (w.getD (index / 64) 0 ||| (1 <<< (index % 64).toUInt64))))
    | none => bf

/-- `(bf.bits[id][wordIndex] & offset) != 0`; indexing a nil slice panics and is recovered to `false`
(cache/bloom.go:67-74). -/
def testIn (b : Option (List UInt64)) (index : Nat) : Bool :=
  match b with
  | some w => (w.getD (index / 64) 0 &&& (1 <<< (index % 64).toUInt64)) != 0
  | none => false

/-- `testBit` (cache/bloom.go:67-74). -/
def testBit (bf : BF) (index : Nat) : BF × Bool :=
  match getBitIndex bf with
  | (bf, id, prevId) => (bf, testIn (bf.bits id) index || testIn (bf.bits prevId) index)

/-- The position of hash function `i` (cache/bloom.go:81, 90). -/
def pos (hash : Nat → I → UInt64) (arraySize i : Nat) (x : I) : Nat := (hash i x).toNat % (arraySize * 64)

/-- `Add` (cache/bloom.go:77-84). With `arraySize = 0` the `%` panics and is recovered: only the counter
has moved. -/
def add (hash : Nat → I → UInt64) (bf : BF) (x : I) : BF :=
  let bf := { bf with numCount := bf.numCount + 1 }
  if bf.arraySize = 0 then bf
  else (List.range bf.hashCount).foldl (fun bf i => setBit bf (pos hash bf.arraySize i x)) bf

/-- The loop of `Contains` (cache/bloom.go:89-94) from `i` on. -/
def containsLoop (hash : Nat → I → UInt64) (x : I) : List Nat → BF → BF × Bool
  | [], bf => (bf, true)
  | i :: is, bf =>
    match testBit bf (pos hash bf.arraySize i x) with
    | (bf, true) => containsLoop hash x is bf
    | (bf, false) => (bf, false)

/-- `Contains` (cache/bloom.go:87-96). With `arraySize = 0` the `%` panics and the recovered result is
`false`. -/
def contains (hash : Nat → I → UInt64) (bf : BF) (x : I) : BF × Bool :=
  if bf.arraySize = 0 ∧ bf.hashCount ≠ 0 then (bf, false)
  else containsLoop hash x (List.range bf.hashCount) bf

/-- `NewBloomFilter` (cache/bloom.go:30-52) after sizing. -/
def new (hashCount arraySize expectedItems : Nat) : BF :=
  (getBitIndex ⟨none, none, none, hashCount, 0, arraySize, expectedItems⟩).1

/-- One call. -/
def step (hash : Nat → I → UInt64) (bf : BF) : Op I → BF
  | .add x => add hash bf x
  | .contains x => (contains hash bf x).1

/-- The filter after a history. -/
def final (hash : Nat → I → UInt64) (bf : BF) (os : List (Op I)) : BF := os.foldl (step hash) bf

/-! ## Concurrent `Add` inside one generation

Each `setBit` is a load of the word and a store of the word with the bit or-ed in (cache/bloom.go:63,
`|=` on a shared word without synchronisation). -/

/-- One goroutine: the positions still to set, and the word it has loaded for the first of them. -/
structure Thread where
  todo : List Nat
  loaded : Option UInt64
deriving DecidableEq

/-- Shared words and goroutines. -/
structure Conc (n : Nat) where
  words : Nat → UInt64
  thr : Fin n → Thread

/-- Load of the word, or store of the word. -/
inductive Act (n : Nat) where
  | load (g : Fin n)
  | store (g : Fin n)

/-- One atomic access. -/
def Conc.act {n : Nat} (s : Conc n) : Act n → Option (Conc n)
  | .load g =>
    match s.thr g with
    | ⟨i :: is, none⟩ => some { s with thr := fun j => if j = g then ⟨i :: is, some (s.words (i / 64))⟩ else s.thr j }
    | _ => none
  | .store g =>
    match s.thr g with
    | ⟨i :: is, some w⟩ =>
      some { words := fun k => if k = i / 64 then w ||| (1 <<< (i % 64).toUInt64) else s.words k
             thr := fun j => if j = g then ⟨is, none⟩ else s.thr j }
    | _ => none

/-- Execution of a schedule. -/
def Conc.exec {n : Nat} (s : Conc n) : List (Act n) → Option (Conc n)
  | [] => some s
  | a :: as => (s.act a).bind fun s' => s'.exec as

/-- The bit at a position. -/
def bitOf (words : Nat → UInt64) (index : Nat) : Bool := (words (index / 64) &&& (1 <<< (index % 64).toUInt64)) != 0

end Gofer.Bloom
