import Verif.Proof.LimitMap

/-! # `LimitMap`: properties C17, C18 -/
namespace Gofer.Props.LimitMap
open Gofer.LimitMap Gofer.Spec.Assoc
open Gofer.Spec.LimitMap (Op Res)
variable {K V : Type} [DecidableEq K]

/-- C17, the full claim. -/
def C17_claim : Prop := ∀ (cap : Nat) (os : List (Op Nat Nat)), len (final 0 (new cap) os) ≤ cap

/-- C17 is false: one entry too many is kept. -/
theorem C17_claim_false : ¬ C17_claim := by
  intro h
  have h1 := h 2 [.put 1 1, .put 2 2, .put 3 3, .put 4 4]
  have h2 : len (final 0 (new 2 : LM Nat Nat) [.put 1 1, .put 2 2, .put 3 3, .put 4 4]) = 3 := by decide +kernel
  rw [show ((2 : Nat) : Int) = 2 from rfl] at h1
  rw [h2] at h1
  omega

/-- C17. The bound that holds: `max(C + 1, 1)` entries. Missing: one entry less. -/
theorem C17_capacity_partial (zv : V) (cap : Int) (os : List (Op K V)) :
    (len (final zv (new cap) os) : Int) ≤ max (cap + 1) 1 := by
  obtain ⟨_, es, h, hc⟩ := run_spec zv cap (inv_new cap) rfl os
  obtain ⟨ids, hl⟩ := h.lnk
  have := h.bound
  rw [len, hl.size_eq, ← hc]
  exact this

/-- C17. The bound is met for every capacity: putting the keys 0 … C leaves C + 1 entries. -/
theorem C17_bound_reached (cap : Nat) :
    ∃ os : List (Op Nat Nat), len (final 0 (new cap) os) = cap + 1 := by
  refine ⟨(List.range (cap + 1)).map fun i => .put i i, ?_⟩
  have key : ∀ n ≤ cap + 1, ∃ es : List (Nat × Nat), Inv (final 0 (new (cap : Int)) ((List.range n).map fun i => .put i i)) es ∧
      es.length = n ∧ (∀ p ∈ es, p.1 < n) ∧ (final 0 (new (cap : Int)) ((List.range n).map fun i => Op.put i i)).capacity = cap := by
    intro n
    induction n with
    | zero => intro _; exact ⟨[], inv_new _, rfl, by simp, rfl⟩
    | succ n ih =>
      intro hn
      obtain ⟨es, h1, h2, h3, h4⟩ := ih (by omega)
      have hnk : n ∉ es.map Prod.fst := by
        intro hm
        obtain ⟨p, hp, he⟩ := List.mem_map.1 hm
        have := h3 p hp; omega
      have hf := find_none.2 hnk
      obtain ⟨p1, p2, _⟩ := put_spec h1 n n
      rw [h4] at p1 p2
      have hs : Spec.LimitMap.put (cap : Int) n n es = (n, n) :: es := by
        simp only [Spec.LimitMap.put, hf]
        rw [if_neg (by omega)]
      rw [hs] at p1
      refine ⟨(n, n) :: es, ?_, by simp [h2], ?_, ?_⟩
      · rw [List.range_succ, List.map_append, final, List.foldl_append]; exact p1
      · intro p hp
        rcases List.mem_cons.1 hp with rfl | hp
        · simp
        · have := h3 p hp; omega
      · rw [List.range_succ, List.map_append, final, List.foldl_append]; exact p2
  obtain ⟨es, h1, h2, _⟩ := key (cap + 1) le_rfl
  obtain ⟨ids, hl⟩ := h1.lnk
  rw [len, hl.size_eq, h2]

/-- C18. Every history of calls on a new map returns what the list ordered by last Put returns. -/
theorem C18_limitMap_refines (zv : V) (cap : Int) (os : List (Op K V)) :
    run zv (new cap) os = Spec.LimitMap.run zv cap [] os :=
  (run_spec zv cap (inv_new cap) rfl os).1

/-- C18. What `Put` does in the specification. "Full" means more than `cap` entries (see C17). -/
theorem C18_put_spec (cap : Int) (k : K) (v : V) (es : List (K × V)) :
    (k ∈ es.map Prod.fst → Spec.LimitMap.put cap k v es = (k, v) :: es.filter fun p => p.1 ≠ k) ∧
    (k ∉ es.map Prod.fst → (es.length : Int) ≤ cap → Spec.LimitMap.put cap k v es = (k, v) :: es) ∧
    (k ∉ es.map Prod.fst → ∀ oldest newer, es = newer ++ [oldest] → cap < es.length →
      Spec.LimitMap.put cap k v es = (k, v) :: newer) := by
  refine ⟨?_, ?_, ?_⟩
  · intro h
    cases hf : find k es with
    | none => exact absurd h (find_none.1 hf)
    | some w => simp only [Spec.LimitMap.put, hf]; rfl
  · intro h hl
    simp only [Spec.LimitMap.put, find_none.2 h]
    rw [if_neg (by omega)]
  · intro h oldest newer he hl
    simp only [Spec.LimitMap.put, find_none.2 h]
    rw [if_pos (by omega), he, List.dropLast_concat]

/-- Get does not refresh, Put does. -/
example : run 0 (new 1 : LM Nat Nat)
    [.put 1 10, .put 2 20, .get 1, .put 1 11, .put 3 30, .get 2, .get 1, .len, .removeMulti [1, 7], .len] =
    [.val 0 false, .val 0 false, .val 10 true, .val 10 true, .val 0 false, .val 0 false, .val 11 true,
     .num 2, .unit, .num 1] := by decide +kernel

end Gofer.Props.LimitMap
