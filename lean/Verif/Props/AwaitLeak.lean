import Verif.Proof.AwaitLeak
/-!
# Property theorems: `Await` and `FastAwait` leave nothing behind (C178)
-/
namespace Gofer.Props.AwaitLeak
open Gofer.Await (Id)
open Gofer.AwaitLeak

variable {V : Type}

section Await
open Gofer.Await

/-- `Has` (lock/await.go:41-43). -/
def has (s : St V) (x : Id) : Bool := (s.m x).isSome

/-- A `Wait` of `x` that has not returned. -/
def Waits (s : St V) (x : Id) : Prop := ∃ (i : Nat) (c : Call V) (t k : Bool), s.log[i]? = some c ∧ c.kind = .wait t k ∧ c.idx = x ∧ ∀ r, c.pc ≠ .wRet r

/-- `Has(x)` answers true only while a `Wait(x)` is running: in every execution the table has no entries for ids nobody waits for,
whether the waits were answered, closed, cancelled or timed out. -/
theorem C178_await (ix : Id → Nat) (loops : Nat) (as : List (Act V)) (s : St V) (h : exec ix loops (new V) as = some s) (x : Id)
    (hx : has s x = true) : Waits s x := by
  have hH : A.Held s := A.held_exec ix loops as (fun _ _ h => by cases h) h
  obtain ⟨ch, hch⟩ := Option.isSome_iff_exists.1 hx
  obtain ⟨i, c, hi, hc, hp⟩ := hH x ch hch
  have hk := (inv_exec (inv_new ix) h).ko i c hi
  cases hq : c.kind with
  | wait t k =>
    refine ⟨i, c, t, k, hi, hq, hc, fun r hr => ?_⟩
    rw [hr] at hp
    exact absurd hp (by simp [A.past])
  | put v => cases hpc : c.pc <;> simp_all [kindOk, A.past]
  | close => cases hpc : c.pc <;> simp_all [kindOk, A.past]

/-- A `Wait(5)` in progress, and after it has timed out. -/
example : (exec (fun _ => 0) 1000 (new Nat) ([.wait true false 5] ++ List.replicate 4 (.step 0))).map (has · 5) = some true ∧
    (exec (fun _ => 0) 1000 (new Nat) ([.wait true false 5] ++ List.replicate 4 (.step 0) ++ [.timeout 0, .step 0, .step 0])).map (has · 5) = some false := by decide +kernel

end Await

section FastAwait
open Gofer.FastAwait

/-- A `Wait` of `x` that has not returned. -/
def FastWaits (s : St V) (x : Id) : Prop := ∃ (i : Nat) (c : Call V) (t k : Bool), s.log[i]? = some c ∧ c.kind = .wait t k ∧ c.idx = x ∧ ∀ r, c.pc ≠ .wRet r

/-- The same for `FastAwait`: its table has entries only for ids somebody waits for, whatever its filter answers. -/
theorem C178_fastAwait (has : List Id → Id → Bool) (loops : Nat) (as : List (Act V)) (s : St V) (h : exec has loops (new V) as = some s) (x : Id)
    (hx : (s.m x).isSome = true) : FastWaits s x := by
  have hH : F.Held s := F.held_exec has loops as (fun _ _ h => by cases h) h
  obtain ⟨ch, hch⟩ := Option.isSome_iff_exists.1 hx
  obtain ⟨i, c, hi, hc, hp⟩ := hH x ch hch
  have hk := (inv_exec inv_new h).ko i c hi
  cases hq : c.kind with
  | wait t k =>
    refine ⟨i, c, t, k, hi, hq, hc, fun r hr => ?_⟩
    rw [hr] at hp
    exact absurd hp (by simp [F.past])
  | put v => cases hpc : c.pc <;> simp_all [kindOk, F.past]
  | close => cases hpc : c.pc <;> simp_all [kindOk, F.past]

example : (exec (fun l x => l.contains x) 30 (new Nat) [.wait true false 5, .step 0]).map (fun s => (s.m 5).isSome) = some true ∧
    (exec (fun l x => l.contains x) 30 (new Nat) [.wait true false 5, .step 0, .timeout 0, .step 0, .step 0, .step 0]).map (fun s => (s.m 5).isSome) = some false := by
  decide +kernel

end FastAwait

end Gofer.Props.AwaitLeak
