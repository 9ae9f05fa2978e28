import Verif.Proof.Lru
import Mathlib.Data.List.Perm.Subperm

/-! # `LruCache`: properties C33, C34 -/
namespace Gofer.Props.Lru
open Gofer.Lru Gofer.Spec.Assoc
open Gofer.Spec.Lru (Op Res)
variable {K V : Type} [DecidableEq K] [GoValue V]

/-- C33. With `maxEntries = M > 0`, after every history, at most `M` different keys are found by Get. -/
theorem C33_capacity (str : String → K) (M : Int) (hM : 0 < M) (os : List (Op K V)) (ks : List (Option K)) (hnd : ks.Nodup)
    (hk : ∀ k ∈ ks, (Gofer.Lru.get (final str (new M : LC K V) os) k).2.2 = true) : (ks.length : Int) ≤ M := by
  obtain ⟨_, es, h⟩ := run_spec str (inv_new M) os
  obtain ⟨ids, hl⟩ := h.lnk
  have hb := h.pos hM
  have hsub : ks ⊆ es.map (fun p => some p.1) := by
    intro k hkm
    have h1 := hk k hkm
    have h2 := (get_spec h str k).1
    simp only [step] at h2
    rw [h1] at h2
    cases k with
    | none => simp [Spec.Lru.step] at h2
    | some k =>
      simp only [Spec.Lru.step] at h2
      cases hf : find k es with
      | none => rw [hf] at h2; simp at h2
      | some w =>
        have : k ∈ es.map Prod.fst := by
          by_contra hc
          rw [find_none.2 hc] at hf
          simp at hf
        obtain ⟨p, hp, rfl⟩ := List.mem_map.1 this
        exact List.mem_map.2 ⟨p, hp, rfl⟩
  have := (List.subperm_of_subset hnd hsub).length_le
  simp only [List.length_map] at this
  omega

/-- C33. The number of entries held never exceeds `M`. -/
theorem C33_size (str : String → K) (M : Int) (hM : 0 < M) (os : List (Op K V)) :
    ((final str (new M : LC K V) os).cache.size : Int) ≤ M ∧ (final str (new M : LC K V) os).ll.len = (final str (new M : LC K V) os).cache.size := by
  obtain ⟨_, es, h⟩ := run_spec str (inv_new M) os
  obtain ⟨ids, hl⟩ := h.lnk
  have hb := h.pos hM
  rw [hl.size_eq, hl.len_eq, List.length_map]
  exact ⟨hb, rfl⟩

/-- C33. With `maxEntries = 0` nothing is ever evicted: the cache is a plain map. -/
theorem C33_unlimited (str : String → K) (os : List (Op K V)) :
    run str (new 0 : LC K V) os = Spec.Lru.plainRun str GoValue.zero (fun _ => none) os := by
  rw [(run_spec str (inv_new 0) os).1]
  exact Spec.Lru.plain_run str GoValue.zero (fun k => rfl) os

/-- C33 (corner). A negative `maxEntries` caches nothing. -/
theorem C33_negative (str : String → K) (M : Int) (hM : M < 0) (os : List (Op K V)) (k : Option K) :
    (Gofer.Lru.get (final str (new M : LC K V) os) k).2.2 = false := by
  obtain ⟨_, es, h⟩ := run_spec str (inv_new M) os
  obtain rfl := h.neg hM
  have h2 := (get_spec h str k).1
  simp only [step] at h2
  cases k <;> simp [Spec.Lru.step, find] at h2 <;> exact h2.2

/-- C34. Every history on a new cache returns what the recency list returns. -/
theorem C34_lru_refines (str : String → K) (M : Int) (os : List (Op K V)) :
    run str (new M : LC K V) os = Spec.Lru.run str GoValue.zero M [] os :=
  (run_spec str (inv_new M) os).1

omit [GoValue V] in
/-- C34. What Add and Get do in the specification: Add to a full cache evicts exactly the least recently
used entry; Get and Add of a present key move it to the front; a nil key is ignored. -/
theorem C34_spec (str : String → K) (zv : V) (M : Int) (k : K) (v : V) (es : List (K × V)) :
    (∀ newer oldest, es = newer ++ [oldest] → 0 < M → (es.length : Int) = M → k ∉ es.map Prod.fst →
      Spec.Lru.add M k v es = (k, v) :: newer) ∧
    (k ∉ es.map Prod.fst → (es.length : Int) < M → Spec.Lru.add M k v es = (k, v) :: es) ∧
    (k ∈ es.map Prod.fst → Spec.Lru.add M k v es = (k, v) :: es.filter fun p => p.1 ≠ k) ∧
    (∀ w, find k es = some w →
      Spec.Lru.step str zv M es (.get (some k)) = ((k, w) :: es.filter fun p => p.1 ≠ k, .val w true)) ∧
    Spec.Lru.step str zv M es (.add none v) = (es, .unit) := by
  refine ⟨?_, ?_, ?_, ?_, rfl⟩
  · intro newer oldest he hM hl hk
    simp only [Spec.Lru.add, find_none.2 hk]
    rw [if_pos ⟨by omega, by omega⟩, he, ← List.cons_append, List.dropLast_concat]
  · intro hk hl
    simp only [Spec.Lru.add, find_none.2 hk]
    rw [if_neg (by omega)]
  · intro hk
    cases hf : find k es with
    | none => exact absurd hk (find_none.1 hf)
    | some w => simp only [Spec.Lru.add, hf]; rfl
  · intro w hw
    simp only [Spec.Lru.step, hw]; rfl

/-- Get refreshes: key 1 survives, key 2 is evicted. -/
example : run (fun s => s.length) (new 2 : LC Nat Nat)
    [.add (some 1) 10, .add (some 2) 20, .get (some 1), .add (some 3) 30, .add none 99, .get (some 2), .get (some 1), .get none,
     .removeMulti ["abc", "x"], .get (some 3), .get (some 1)] =
    [.unit, .unit, .val 10 true, .unit, .unit, .val 0 false, .val 10 true, .val 0 false, .unit, .val 0 false, .val 0 false] := by
  decide +kernel

/-- A full cache of three: `C33_capacity` is tight. -/
example : (Gofer.Lru.get (final (fun s => s.length) (new 3 : LC Nat Nat) [.add (some 1) 10, .add (some 2) 20, .add (some 3) 3, .add (some 4) 4]) (some 4)).2 = (4, true) ∧
    (final (fun s => s.length) (new 3 : LC Nat Nat) [.add (some 1) 10, .add (some 2) 20, .add (some 3) 3, .add (some 4) 4]).cache.size = 3 := by
  decide +kernel

/-- An interface-typed cache: a nil value is found. -/
example : run (fun s => s.length) (new 3 : LC Nat (Option Nat)) [.add (some 1) none, .get (some 1)] = [.unit, .val none true] := by
  decide +kernel

end Gofer.Props.Lru
