import Verif.Proof.RaceLock
/-!
# Property theorems: what is protected by `Numlock`, `Strlock` and `LimitLock` (C226)
-/
namespace Gofer.Props.RaceLock
open Gofer.Race Gofer.Race.Keyed

/-- No data race on data of type `D` when every goroutine uses the locks carefully. -/
def Protects {K : Type} [DecidableEq K] (ix : K → Option Nat) : Prop :=
  ∀ (D : Type) [DecidableEq D] (key : D → K) (tr : Trace Nat D Unit) (s : St Nat D Unit), exec (St.init fun _ => ()) tr = some s →
    (∀ t, ∃ p, Careful key [] [] p ∧ proj t tr <+: run ix p) → ∀ d, ¬ RaceOn tr d

/-- Numlock: goroutines, in any number, that access each datum only while they have its key do not race, whatever the number of mutexes, the keys, and the other
keys they hold. In particular each of them sees what those before it wrote. -/
theorem C226_numlock (muxNum : BitVec 64) : Protects (Lock.numMutex muxNum) := fun _ _ _ _ _ he hf d => keyed_free he hf d

/-- Strlock: likewise, with several readers at a time, for every hash function. -/
theorem C226_strlock (hash : List UInt8 → BitVec 64) (muxNum : BitVec 64) : Protects (Lock.strMutex hash muxNum) :=
  fun _ _ _ _ _ he hf d => keyed_free he hf d

/-- LimitLock with limit 1. -/
theorem C226_limit_one {D : Type} [DecidableEq D] (tr : Trace Empty (LLoc D) Nat) (s : St Empty (LLoc D) Nat) (he : exec (St.init fun _ => 0) tr = some s)
    (hf : ∀ t, ∃ p l, Careful1 0 p ∧ LRuns 1 p l ∧ proj t tr <+: l) (d : D) : ¬ RaceOn tr (.data d) := by
  refine limit_free he (fun t => ?_) d
  obtain ⟨p, l, h1, h2, h3⟩ := hf t
  exact allows_prefix h3 (lruns_ok h2 0 h1)

/-- The key of every datum is its number. -/
def own (d : Nat) : BitVec 64 := BitVec.ofNat 64 d

/-- Three mutexes. One goroutine writes the data of the keys 4 and 5, holding both; then another reads that of key 4 and begins to write it. -/
def twoKeys : Trace Nat Nat Unit :=
  [(0, .lock 1), (0, .lock 2), (0, .wr 4 ()), (0, .wr 5 ()), (0, .unlock 1), (1, .lock 1), (1, .rd 4 ()), (0, .wr 5 ()), (1, .wr 4 ())]

/-- An execution the theorem speaks of. -/
example : (exec (St.init fun _ => ()) twoKeys).isSome = true ∧
    ∀ t, ∃ p, Careful own [] [] p ∧ proj t twoKeys <+: run (Lock.numMutex 3) p := by
  refine ⟨by decide +kernel, fun t => ?_⟩
  match t with
  | 0 => exact ⟨[.lock 4, .lock 5, .write 4, .write 5, .unlock 4, .write 5], by simp [Careful, own], by decide +kernel⟩
  | 1 => exact ⟨[.lock 4, .read 4, .write 4], by simp [Careful, own], by decide +kernel⟩
  | t + 2 => exact ⟨[], trivial, by simp [proj, twoKeys]⟩

/-- A key is needed: two goroutines that write one datum, one with its key and one with another, race. So does writing with the key for reading. -/
theorem C226_other_key :
    (∃ (tr : Trace Nat Unit Unit) (s : St Nat Unit Unit), exec (St.init fun _ => ()) tr = some s ∧
      proj 0 tr = run (Lock.numMutex 3) [.lock 4, .write ()] ∧ proj 1 tr = run (Lock.numMutex 3) [.lock 5, .write ()] ∧ RaceOn tr ()) ∧
    ∀ (hash : List UInt8 → BitVec 64) (k : List UInt8), ∃ (tr : Trace Nat Unit Unit) (s : St Nat Unit Unit), exec (St.init fun _ => ()) tr = some s ∧
      proj 0 tr = run (Lock.strMutex hash 1) [.rlock k, .write ()] ∧ proj 1 tr = run (Lock.strMutex hash 1) [.rlock k, .write ()] ∧ RaceOn tr () := by
  refine ⟨⟨[(0, .lock 1), (1, .lock 2), (0, .wr () ()), (1, .wr () ())], _, Option.eq_some_of_isSome (by decide +kernel), by decide +kernel, by decide +kernel,
    race_of_last (i := 2) (j := 3) (by decide) rfl rfl (by decide) rfl rfl (.inr rfl) (by decide)⟩, fun hash k => ?_⟩
  have h0 : Lock.strMutex hash 1 k = some 0 := by
    have : (hash k).umod 1 = 0 := by
      rw [BitVec.umod_eq]; exact BitVec.umod_one
    simp only [Lock.strMutex, Lock.mutexAt, this]
    decide +kernel
  refine ⟨[(0, .rlock 0), (1, .rlock 0), (0, .wr () ()), (1, .wr () ())], _, Option.eq_some_of_isSome (by decide +kernel), ?_, ?_,
    race_of_last (i := 2) (j := 3) (by decide) rfl rfl (by decide) rfl rfl (.inr rfl) (by decide)⟩ <;>
    simp only [run, act, h0, Option.map_some] <;> rfl

/-- With limit 2 a LimitLock protects nothing: two goroutines are let in and race. -/
theorem C226_limit_two : ∃ (tr : Trace Empty (LLoc Unit) Nat) (s : St Empty (LLoc Unit) Nat), exec (St.init fun _ => 0) tr = some s ∧
    (∀ t, ∃ p l, Careful1 0 p ∧ LRuns 2 p l ∧ proj t tr <+: l) ∧ RaceOn tr (.data ()) := by
  refine ⟨[(0, .armw .ch 0 1), (0, .armw .count 0 1), (1, .armw .ch 1 2), (1, .armw .count 1 2), (0, .wr (.data ()) 0), (1, .wr (.data ()) 0)], _,
    Option.eq_some_of_isSome (by decide +kernel), fun t => ?_, race_of_last (i := 4) (j := 5) (by decide) rfl rfl (by decide) rfl rfl (.inr rfl) (by decide)⟩
  match t with
  | 0 => exact ⟨[.lock (), .write ()], _, by simp [Careful1], .lock 0 0 (by decide) (.write () 0 .nil), by decide⟩
  | 1 => exact ⟨[.lock (), .write ()], _, by simp [Careful1], .lock 1 1 (by decide) (.write () 0 .nil), by decide⟩
  | t + 2 => exact ⟨[], [], trivial, .nil, by simp [proj]⟩

/-- An execution the theorem on limit 1 speaks of: one goroutine after the other. -/
def inTurn : Trace Empty (LLoc Nat) Nat :=
  [(0, .armw .ch 0 1), (0, .armw .count 0 1), (0, .wr (.data 7) 3), (0, .armw .ch 1 0), (1, .armw .ch 0 1), (0, .armw .count' 0 1), (1, .armw .count 1 2),
    (1, .rd (.data 7) 3), (1, .wr (.data 7) 4)]

example : (exec (St.init fun _ => 0) inTurn).isSome = true ∧ ∀ t, ∃ p l, Careful1 0 p ∧ LRuns 1 p l ∧ proj t inTurn <+: l := by
  refine ⟨by decide +kernel, fun t => ?_⟩
  match t with
  | 0 => exact ⟨[.lock (), .write 7, .unlock ()], _, by simp [Careful1], .lock 0 0 (by decide) (.write 7 3 (.unlock 0 0 .nil)), by decide⟩
  | 1 => exact ⟨[.lock (), .read 7, .write 7], _, by simp [Careful1], .lock 0 1 (by decide) (.read 7 3 (.write 7 4 .nil)), by decide⟩
  | t + 2 => exact ⟨[], [], trivial, .nil, by simp [proj, inTurn]⟩

end Gofer.Props.RaceLock
