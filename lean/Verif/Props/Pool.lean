import Verif.Proof.Pool

/-! # Object pools: properties C51, C52 -/
namespace Gofer.Props.Pool
open Gofer.Pool Gofer.Spec.Pool

/-! ### C51 -/

/-- C51, as stated: in no run is an object handed out while it is in use, and a buffer handed out is empty. -/
def C51_claim : Prop := ∀ (as : List (Act (List UInt8))) (s : St (List UInt8)) (es : List (Event (List UInt8))),
  exec bufPool (init bufPool) as = some (s, es) → Exclusive [] es ∧ ∀ p c, Event.got p c ∈ es → c = []

/-- What users see, if the run is possible. -/
def trace (as : List (Act (List UInt8))) : Option (List (Event (List UInt8))) := (exec bufPool (init bufPool) as).map (·.2)

/-- C51 is false: `Free` called twice on a buffer hands it to two users. -/
theorem C51_claim_false : ¬ C51_claim := by
  intro h
  have ht : trace [.get 0 none, .free 0, .free 0, .get 1 (some 0), .get 2 (some 0)] =
      some [.got 0 [], .released 0, .released 0, .got 0 [], .got 0 []] := by decide +kernel
  unfold trace at ht
  rw [Option.map_eq_some_iff] at ht
  obtain ⟨⟨s, es⟩, he, rfl⟩ := ht
  have := (h _ s _ he).1
  simp [Exclusive] at this

/-- C51, what holds: if users give back only what they have, no object is handed out while in use, for any pool, in any run
(with any copying of pointers, any choice of `sync.Pool` and any drops). Missing: `Free` does not stop a second `Free`. -/
theorem C51_exclusive_partial {α : Type} (P : Params α) (as : List (Act α)) (s : St α) (es : List (Event α))
    (he : exec P (init P) as = some (s, es)) (hd : Disciplined [] es) : Exclusive [] es :=
  exec_exclusive P as _ s es [] (inv_init P) he hd

/-- C51, what holds: a program that only uses `Get` and `Put(&v)` and does not copy pointers is disciplined by itself,
however often it calls `Put`, because `Put` clears the variable. -/
theorem C51_put_partial {α : Type} (P : Params α) (as : List (Act α)) (s : St α) (es : List (Event α))
    (he : exec P (init P) as = some (s, es)) (hp : ∀ a ∈ as, Plain a) : Disciplined [] es ∧ Exclusive [] es := by
  have hd := exec_plain P as _ s es [] (pinv_init P) he hp
  exact ⟨hd, C51_exclusive_partial P as s es he hd⟩

/-- C51, what holds: a buffer from the pool is always empty, in every run, double `Free` included. -/
theorem C51_empty_partial (as : List (Act (List UInt8))) (s : St (List UInt8)) (es : List (Event (List UInt8)))
    (he : exec bufPool (init bufPool) as = some (s, es)) : ∀ p c, Event.got p c ∈ es → c = [] := by
  intro p c hm
  obtain ⟨x, hx⟩ := exec_reset bufPool (fun _ => []) rfl as _ s es he p c hm
  exact hx

/-- Two users, one of which puts its buffer back twice; reuse of the buffer, which had been written. -/
example : trace [.get 0 none, .get 1 none, .use 0 [1, 2], .put 0, .put 0, .get 0 (some 0), .use 1 [3], .put 1, .drop 0, .get 1 none] =
    some [.got 0 [], .got 1 [], .released 0, .got 0 [], .released 1, .got 2 []] := by decide +kernel

/-! ### C52 -/

/-- C52, as stated: `Get` and `Put` use the size class of the length. -/
def C52_claim : Prop := ∀ poolsize : Nat, 0 < poolsize → poolsize ≤ 60 → ∀ len : Nat, len < 8 * 2 ^ poolsize →
  ∃ i, poolIndex poolsize (BitVec.ofNat 64 len) = some i ∧ IsClass len i

theorem router_route {poolsize : Nat} (h : poolsize ≤ 60) (len : BitVec 64) : getRouter poolsize len = 0 := by
  unfold getRouter router
  cases poolsize with
  | zero => rfl
  | succ n =>
    rw [List.range_succ_eq_map, List.map_cons, routeFrom]
    split
    · rfl
    · rename_i hlt
      apply routeFrom_zero
      intro v hv
      simp only [List.map_map, List.mem_map, List.mem_range, Function.comp] at hv
      obtain ⟨i, hi, rfl⟩ := hv
      have h0 : (routerEntry 0).toInt = 8 := by decide
      have h1 := routerEntry_toInt (i := i.succ) (by omega)
      have hlt : ¬ (8 : Int) ≤ len.toInt := by
        rw [BitVec.sle, decide_eq_true_eq, h0] at hlt
        exact hlt
      rw [BitVec.sle, decide_eq_false_iff_not, h1]
      have : (1 : Int) ≤ 2 ^ i.succ := Int.pow_pos (by decide)
      omega

/-- C52 is false: 16 bytes go to class 0, not 1. -/
theorem C52_claim_false : ¬ C52_claim := by
  intro h
  obtain ⟨i, hi, hc⟩ := h 2 (by decide) (by decide) 16 (by decide)
  have : poolIndex 2 (BitVec.ofNat 64 16) = some 0 := by decide +kernel
  rw [this] at hi
  cases hi
  have := hc.1
  omega

/-- C52, what holds: in a pool of up to 60 classes everything goes to class 0, whatever the length; this is the right class
for less than 16 bytes only. There is no index panic unless the pool has no class at all. Missing: the other classes are
never used. -/
theorem C52_route_partial (poolsize : Nat) (h : poolsize ≤ 60) (len : BitVec 64) :
    poolIndex poolsize len = (if poolsize = 0 then none else some 0) ∧
    ∀ n : Nat, IsClass n 0 ↔ n < 16 := by
  constructor
  · unfold poolIndex
    rw [router_route h]
    split
    · rw [if_neg (by omega)]
    · rw [if_pos (by omega)]
  · intro n
    simp [IsClass]

/-- C52, larger pools: the bound of class 60 overflows to the smallest int, so lengths below 8 (and negative ones) go to class
60 and all others to class 0. -/
theorem C52_route_large (poolsize : Nat) (h : 60 < poolsize) (len : BitVec 64) :
    poolIndex poolsize len = some (if 8 ≤ len.toInt then 0 else 60) := by
  have key : getRouter poolsize len = if 8 ≤ len.toInt then 0 else 60 := by
    unfold getRouter router
    obtain ⟨k, rfl⟩ : ∃ k, poolsize = 60 + (1 + k) := ⟨poolsize - 61, by omega⟩
    rw [List.range_add, List.map_append]
    have h0 : (routerEntry 0).toInt = 8 := by decide
    split
    · rename_i hle
      rw [List.range_succ_eq_map, List.map_cons, List.cons_append, routeFrom, if_pos]
      rw [BitVec.sle, decide_eq_true_eq, h0]
      exact hle
    · rename_i hlt
      rw [Nat.add_comm 1 k, List.range_succ_eq_map (n := k), List.map_cons, List.map_cons, routeFrom_append, List.length_map, List.length_range]
      · intro v hv
        obtain ⟨i, hi, rfl⟩ := List.mem_map.1 hv
        rw [List.mem_range] at hi
        rw [BitVec.sle, decide_eq_false_iff_not, routerEntry_toInt hi]
        have : (1 : Int) ≤ 2 ^ i := Int.pow_pos (by decide)
        omega
      · have hm : (routerEntry (60 + 0)).toInt = -9223372036854775808 := by decide +kernel
        have := BitVec.le_toInt len
        rw [BitVec.sle, decide_eq_true_eq, hm]
        exact this
  unfold poolIndex
  rw [key, if_pos]
  split <;> omega

example : poolIndex 64 5#64 = some 60 ∧ poolIndex 64 512#64 = some 0 := by decide +kernel

example : poolIndex 10 1024#64 = some 0 ∧ poolIndex 10 3#64 = some 0 ∧ poolIndex 10 (-1) = some 0 ∧ IsClass 1024 7 := by
  refine ⟨by decide +kernel, by decide +kernel, by decide +kernel, ?_⟩
  simp [IsClass]

end Gofer.Props.Pool
