import Verif.Proof.BTreeNaN
import Verif.Spec.FloatKey
import Mathlib.Order.WithBot

/-! # `TreeMap` with floating-point keys -/
namespace Gofer.BTreeMap
open Gofer.TreeMap (Item Sorted Inv)
open Gofer.Spec.TreeMap (Op Res visit)
open Gofer.BTree (Good)

variable {K V : Type}

theorem unordered_nan [LinearOrder K] (v : V) : BTree.Unordered (less (V := V) Spec.FloatKey.lt) ⟨(none : Option K), v⟩ := by
  rintro ⟨k, w⟩
  constructor
  · rfl
  · cases k <;> rfl

theorem flt_ordered [LinearOrder K] :
    letI : LinearOrder (Option K) := inferInstanceAs (LinearOrder (WithBot K))
    Ordered (fun k : Option K => k ≠ none) Spec.FloatKey.lt := by
  rintro (_ | a) (_ | b) ha hb
  · exact absurd rfl ha
  · exact absurd rfl ha
  · exact absurd rfl hb
  · have h : ((a : WithBot K) < (b : WithBot K)) ↔ a < b := WithBot.coe_lt_coe
    show decide (a < b) = decide ((a : WithBot K) < (b : WithBot K))
    exact decide_eq_decide.2 h.symm

/-- A history without NaN keys. -/
theorem flt_run [LinearOrder K] (zv : V) {d : Int} (hd : 2 ≤ d) (os : List (Op (Option K) V)) (ho : ∀ o ∈ os, opKey o ≠ none) :
    ∃ m s, newRun Spec.FloatKey.lt zv d os = some (m, Spec.TreeMap.run zv (fun _ => none) os) ∧ Good d.toNat m s ∧
      (∀ i ∈ s, i.key ≠ none) ∧ (∀ k v, Spec.TreeMap.final zv (fun _ => none) os k = some v ↔ (⟨k, v⟩ : Item (Option K) V) ∈ s) ∧
      s.Pairwise (fun a b => Spec.FloatKey.lt a.key b.key = true) ∧
      (s ≠ [] → ∀ v, ∃ A y B t', s = A ++ y :: B ∧ BTree.delete (less Spec.FloatKey.lt) m ⟨none, v⟩ = some (t', some y) ∧ Good d.toNat t' (A ++ B)) := by
  let inst : LinearOrder (Option K) := inferInstanceAs (LinearOrder (WithBot K))
  obtain ⟨m, s, e, hg, hi, hp⟩ := newRun_spec (flt_ordered (K := K)) zv hd os ho
  refine ⟨m, s, ?_, hg, hp, ?_, ?_, ?_⟩
  · rw [e]
  · intro k v
    rw [← hi.map]
  · refine List.Pairwise.imp_of_mem ?_ hi.sorted
    intro a b ha hb h
    rw [flt_ordered a.key b.key (hp a ha) (hp b hb)]
    simpa using h
  · intro hne v
    exact BTree.del_nan (unordered_nan v) (by omega) hg hi.sorted hne

end Gofer.BTreeMap
