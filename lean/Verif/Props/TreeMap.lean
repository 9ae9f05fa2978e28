import Verif.Proof.TreeMap
import Mathlib.Order.Nat

/-! # `TreeMap`: property C12 -/
namespace Gofer.Props.TreeMap
open Gofer.TreeMap
open Gofer.Spec.TreeMap (Op Res visit)
variable {K V : Type} [LinearOrder K]

/-- C12. Every history of Put/Get/Del on a new map returns what a partial function returns. -/
theorem C12_treeMap_refines (zv : V) (os : List (Op K V)) :
    run zv new os = Spec.TreeMap.run zv (fun _ => none) os :=
  (run_spec zv (m := new) (s := fun _ => none) ⟨List.Pairwise.nil, by simp [new]⟩ os).1

/-- C12. After every history there is one list of entries with strictly increasing keys, holding
exactly the present keys with their values; `Ascend` shows it to the callback in order, `Descend` in
the exact reverse, both until the callback returns false. -/
theorem C12_treeMap_iteration (zv : V) (os : List (Op K V)) :
    ∃ l : List (K × V), l.Pairwise (fun a b => a.1 < b.1) ∧
      (∀ k v, (k, v) ∈ l ↔ Spec.TreeMap.final zv (fun _ => none) os k = some v) ∧
      (∀ f, ascend (final zv new os) f = visit f l []) ∧
      (∀ f, descend (final zv new os) f = visit f l.reverse []) := by
  have h := (run_spec zv (m := new) (s := fun _ => none) ⟨List.Pairwise.nil, by simp [new]⟩ os).2
  refine ⟨(final zv new os).tree.map fun i => (i.key, i.value), ?_, ?_, ?_, ?_⟩
  · rw [List.pairwise_map]; exact h.sorted
  · intro k v
    rw [h.map, List.mem_map]
    constructor
    · rintro ⟨⟨ik, iv⟩, h1, h2⟩
      simp only [Prod.mk.injEq] at h2
      obtain ⟨rfl, rfl⟩ := h2; exact h1
    · intro h1; exact ⟨_, h1, rfl⟩
  · intro f; exact iterate_eq f _ []
  · intro f
    rw [descend, iterate_eq, List.map_reverse]

example : run 0 (new : TM Nat Nat) [.put 3 30, .put 1 10, .put 3 31, .del 1, .get 1, .get 3] =
    [.val 0 false, .val 0 false, .val 30 true, .unit, .val 0 false, .val 31 true] := by decide +kernel

example : ascend (final 0 (new : TM Nat Nat) [.put 3 30, .put 1 10, .put 2 20]) (fun seen _ _ => seen.length < 1) =
    [(1, 10), (2, 20)] ∧
    descend (final 0 (new : TM Nat Nat) [.put 3 30, .put 1 10, .put 2 20]) (fun _ _ _ => true) =
    [(3, 30), (2, 20), (1, 10)] := by decide +kernel

end Gofer.Props.TreeMap
