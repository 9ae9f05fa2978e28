import Verif.Model.TreeMap
import Mathlib.Order.Basic
import Mathlib.Order.Defs.LinearOrder

namespace Gofer.TreeMap
open Gofer.Spec.TreeMap (Op Res visit)
variable {K V : Type} [LinearOrder K]

/-- Strictly increasing keys. -/
def Sorted (t : List (Item K V)) : Prop := t.Pairwise fun a b => a.key < b.key

theorem treeGet_iff {t : List (Item K V)} (hs : Sorted t) (x i : Item K V) :
    treeGet t x = some i ↔ i ∈ t ∧ i.key = x.key := by
  induction t with
  | nil => simp [treeGet]
  | cons y ys ih =>
    obtain ⟨h1, h2⟩ := List.pairwise_cons.1 hs
    simp only [treeGet, Item.less, decide_eq_true_eq, List.mem_cons]
    split
    · rename_i hlt
      refine ⟨fun h => by simp at h, ?_⟩
      rintro ⟨rfl | hm, hk⟩
      · rw [hk] at hlt; exact absurd hlt (lt_irrefl _)
      · have := h1 i hm
        rw [hk] at this
        exact absurd (lt_trans hlt this) (lt_irrefl _)
    · split
      · rename_i _ hlt
        rw [ih h2]
        refine ⟨fun ⟨h, hk⟩ => ⟨Or.inr h, hk⟩, ?_⟩
        rintro ⟨rfl | hm, hk⟩
        · rw [hk] at hlt; exact absurd hlt (lt_irrefl _)
        · exact ⟨hm, hk⟩
      · rename_i n1 n2
        have he : y.key = x.key := le_antisymm (not_lt.1 n1) (not_lt.1 n2)
        refine ⟨fun h => ⟨Or.inl (Option.some.inj h).symm, by rw [← Option.some.inj h]; exact he⟩, ?_⟩
        rintro ⟨rfl | hm, hk⟩
        · rfl
        · have := h1 i hm
          rw [hk, he] at this
          exact absurd this (lt_irrefl _)

theorem roi_mem {t : List (Item K V)} (hs : Sorted t) (x i : Item K V) :
    i ∈ (replaceOrInsert t x).1 ↔ i = x ∨ (i ∈ t ∧ i.key ≠ x.key) := by
  induction t with
  | nil => simp [replaceOrInsert]
  | cons y ys ih =>
    obtain ⟨h1, h2⟩ := List.pairwise_cons.1 hs
    simp only [replaceOrInsert, Item.less, decide_eq_true_eq]
    split
    · rename_i hlt
      simp only [List.mem_cons]
      refine or_congr_right ⟨fun h => ⟨h, ?_⟩, fun h => h.1⟩
      rcases h with rfl | hm
      · exact ne_of_gt hlt
      · exact ne_of_gt (lt_trans hlt (h1 i hm))
    · split
      · rename_i hlt
        simp only [List.mem_cons, ih h2]
        constructor
        · rintro (rfl | rfl | ⟨hm, hk⟩)
          · exact Or.inr ⟨Or.inl rfl, ne_of_lt hlt⟩
          · exact Or.inl rfl
          · exact Or.inr ⟨Or.inr hm, hk⟩
        · rintro (rfl | ⟨rfl | hm, hk⟩)
          · exact Or.inr (Or.inl rfl)
          · exact Or.inl rfl
          · exact Or.inr (Or.inr ⟨hm, hk⟩)
      · rename_i n1 n2
        have he : y.key = x.key := le_antisymm (not_lt.1 n1) (not_lt.1 n2)
        simp only [List.mem_cons]
        constructor
        · rintro (rfl | hm)
          · exact Or.inl rfl
          · exact Or.inr ⟨Or.inr hm, by rw [← he]; exact ne_of_gt (h1 i hm)⟩
        · rintro (rfl | ⟨rfl | hm, hk⟩)
          · exact Or.inl rfl
          · exact absurd he hk
          · exact Or.inr hm

theorem roi_prev (t : List (Item K V)) (x : Item K V) : (replaceOrInsert t x).2 = treeGet t x := by
  induction t with
  | nil => rfl
  | cons y ys ih =>
    simp only [replaceOrInsert, treeGet]
    split
    · rfl
    · split
      · exact ih
      · rfl

theorem roi_sorted {t : List (Item K V)} (hs : Sorted t) (x : Item K V) : Sorted (replaceOrInsert t x).1 := by
  induction t with
  | nil => simp [replaceOrInsert, Sorted]
  | cons y ys ih =>
    obtain ⟨h1, h2⟩ := List.pairwise_cons.1 hs
    simp only [replaceOrInsert, Item.less, decide_eq_true_eq]
    split
    · rename_i hlt
      refine List.pairwise_cons.2 ⟨?_, hs⟩
      intro i hi
      rcases List.mem_cons.1 hi with rfl | hm
      · exact hlt
      · exact lt_trans hlt (h1 i hm)
    · split
      · rename_i hlt
        refine List.pairwise_cons.2 ⟨?_, ih h2⟩
        intro i hi
        rcases (roi_mem h2 x i).1 hi with rfl | ⟨hm, _⟩
        · exact hlt
        · exact h1 i hm
      · rename_i n1 n2
        have he : y.key = x.key := le_antisymm (not_lt.1 n1) (not_lt.1 n2)
        exact List.pairwise_cons.2 ⟨fun i hi => by rw [← he]; exact h1 i hi, h2⟩

theorem del_mem {t : List (Item K V)} (hs : Sorted t) (x i : Item K V) :
    i ∈ treeDelete t x ↔ i ∈ t ∧ i.key ≠ x.key := by
  induction t with
  | nil => simp [treeDelete]
  | cons y ys ih =>
    obtain ⟨h1, h2⟩ := List.pairwise_cons.1 hs
    simp only [treeDelete, Item.less, decide_eq_true_eq]
    split
    · rename_i hlt
      refine ⟨fun h => ⟨h, ?_⟩, fun h => h.1⟩
      rcases List.mem_cons.1 h with rfl | hm
      · exact ne_of_gt hlt
      · exact ne_of_gt (lt_trans hlt (h1 i hm))
    · split
      · rename_i hlt
        simp only [List.mem_cons, ih h2]
        constructor
        · rintro (rfl | ⟨hm, hk⟩)
          · exact ⟨Or.inl rfl, ne_of_lt hlt⟩
          · exact ⟨Or.inr hm, hk⟩
        · rintro ⟨rfl | hm, hk⟩
          · exact Or.inl rfl
          · exact Or.inr ⟨hm, hk⟩
      · rename_i n1 n2
        have he : y.key = x.key := le_antisymm (not_lt.1 n1) (not_lt.1 n2)
        simp only [List.mem_cons]
        constructor
        · intro hm; exact ⟨Or.inr hm, by rw [← he]; exact ne_of_gt (h1 i hm)⟩
        · rintro ⟨rfl | hm, hk⟩
          · exact absurd he hk
          · exact hm

theorem del_sorted {t : List (Item K V)} (hs : Sorted t) (x : Item K V) : Sorted (treeDelete t x) := by
  induction t with
  | nil => exact hs
  | cons y ys ih =>
    obtain ⟨h1, h2⟩ := List.pairwise_cons.1 hs
    simp only [treeDelete, Item.less, decide_eq_true_eq]
    split
    · exact hs
    · split
      · refine List.pairwise_cons.2 ⟨?_, ih h2⟩
        intro i hi
        exact h1 i ((del_mem h2 x i).1 hi).1
      · exact h2

/-- Refinement relation. -/
structure Inv (m : TM K V) (s : K → Option V) : Prop where
  sorted : Sorted m.tree
  map : ∀ k v, s k = some v ↔ (⟨k, v⟩ : Item K V) ∈ m.tree

theorem get_spec (zv : V) {m : TM K V} {s : K → Option V} (h : Inv m s) (k : K) : get zv m k = s k := by
  unfold get
  cases hg : treeGet m.tree ⟨k, zv⟩ with
  | none =>
    cases hs : s k with
    | none => rfl
    | some v =>
      have := (treeGet_iff h.sorted ⟨k, zv⟩ ⟨k, v⟩).2 ⟨(h.map k v).1 hs, rfl⟩
      rw [hg] at this; simp at this
  | some i =>
    obtain ⟨h1, h2⟩ := (treeGet_iff h.sorted ⟨k, zv⟩ i).1 hg
    obtain ⟨ik, iv⟩ := i
    simp only at h2
    subst h2
    exact ((h.map ik iv).2 h1).symm

theorem step_spec (zv : V) {m : TM K V} {s : K → Option V} (h : Inv m s) (o : Op K V) :
    (step zv m o).2 = (Spec.TreeMap.step zv s o).2 ∧ Inv (step zv m o).1 (Spec.TreeMap.step zv s o).1 := by
  cases o with
  | get k =>
    refine ⟨?_, h⟩
    simp only [step, get_spec zv h, Spec.TreeMap.step]
    cases s k <;> rfl
  | del k =>
    refine ⟨rfl, del_sorted h.sorted _, ?_⟩
    intro k' v
    simp only [step, del, Spec.TreeMap.step, del_mem h.sorted]
    by_cases hk : k' = k
    · simp [hk]
    · simp [hk, h.map]
  | put k v =>
    have e1 : (put m k v).2 = s k := by
      rw [← get_spec v h k, get, ← roi_prev]
      simp only [put]
      cases (replaceOrInsert m.tree ⟨k, v⟩).2 <;> rfl
    have e2 : (put m k v).1 = ⟨(replaceOrInsert m.tree ⟨k, v⟩).1⟩ := by
      simp only [put]
      cases (replaceOrInsert m.tree ⟨k, v⟩).2 <;> rfl
    refine ⟨?_, ?_⟩
    · simp only [step, e1, Spec.TreeMap.step]
      cases s k <;> rfl
    · simp only [step, e2, Spec.TreeMap.step]
      refine ⟨roi_sorted h.sorted _, ?_⟩
      intro k' v'
      simp only [roi_mem h.sorted]
      by_cases hk : k' = k
      · subst hk; simp [eq_comm]
      · simp [hk, h.map]

theorem run_spec (zv : V) {m : TM K V} {s : K → Option V} (h : Inv m s) (os : List (Op K V)) :
    run zv m os = Spec.TreeMap.run zv s os ∧ Inv (final zv m os) (Spec.TreeMap.final zv s os) := by
  induction os generalizing m s with
  | nil => exact ⟨rfl, h⟩
  | cons o os ih =>
    obtain ⟨h1, h2⟩ := step_spec zv h o
    obtain ⟨h3, h4⟩ := ih h2
    exact ⟨by simp only [run, Spec.TreeMap.run, h1, h3], h4⟩

theorem iterate_eq (f : List (K × V) → K → V → Bool) (t : List (Item K V)) (seen : List (K × V)) :
    iterate f t seen = visit f (t.map fun i => (i.key, i.value)) seen := by
  induction t generalizing seen with
  | nil => rfl
  | cons y ys ih => simp only [iterate, List.map_cons, visit, ih]

end Gofer.TreeMap
