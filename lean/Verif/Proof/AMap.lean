import Verif.Model.AMap
import Mathlib.Data.List.Nodup
import Mathlib.Data.List.Basic

namespace Gofer.AMap
variable {K A : Type} [DecidableEq K]

@[simp] theorem load_empty (k : K) : (empty : AMap K A).load k = none := rfl

@[simp] theorem size_empty : (empty : AMap K A).size = 0 := rfl

theorem find_filter_ne (l : List (K × A)) (k k' : K) (h : k' ≠ k) :
    (l.filter fun p => p.1 ≠ k).find? (fun p => p.1 = k') = l.find? fun p => p.1 = k' := by
  induction l with
  | nil => rfl
  | cons x xs ih =>
    by_cases hx : x.1 = k
    · have : x.1 ≠ k' := by rw [hx]; exact h.symm
      simp only [List.filter_cons, hx]
      simpa [List.find?_cons, hx, Ne.symm h] using ih
    · by_cases hx' : x.1 = k'
      · simp [List.filter_cons, hx, hx', h]
      · simpa [List.filter_cons, hx, hx'] using ih

theorem find_filter_eq (l : List (K × A)) (k : K) :
    (l.filter fun p => p.1 ≠ k).find? (fun p => p.1 = k) = none := by
  simp

@[simp] theorem load_store_same (m : AMap K A) (k : K) (a : A) : (m.store k a).load k = some a := by
  simp [load, store]

theorem load_store_ne (m : AMap K A) {k k' : K} (a : A) (h : k' ≠ k) : (m.store k a).load k' = m.load k' := by
  simp only [load, store, List.find?_cons, h.symm, decide_false]
  rw [find_filter_ne _ _ _ h]

theorem load_store (m : AMap K A) (k k' : K) (a : A) :
    (m.store k a).load k' = if k' = k then some a else m.load k' := by
  split
  · rename_i h; subst h; simp
  · rename_i h; exact load_store_ne m a h

@[simp] theorem load_delete_same (m : AMap K A) (k : K) : (m.delete k).load k = none := by
  simp only [load, delete, find_filter_eq]; rfl

theorem load_delete_ne (m : AMap K A) {k k' : K} (h : k' ≠ k) : (m.delete k).load k' = m.load k' := by
  simp only [load, delete]
  rw [find_filter_ne _ _ _ h]

theorem load_delete (m : AMap K A) (k k' : K) :
    (m.delete k).load k' = if k' = k then none else m.load k' := by
  split
  · rename_i h; subst h; simp
  · rename_i h; exact load_delete_ne m h

theorem mem_entries_iff (m : AMap K A) (k : K) (a : A) : (k, a) ∈ m.entries ↔ m.load k = some a := by
  obtain ⟨l, hl⟩ := m
  simp only [load]
  induction l with
  | nil => simp
  | cons x xs ih =>
    simp only [List.map_cons, List.nodup_cons, List.mem_map, not_exists, not_and] at hl
    have ih' := ih hl.2
    by_cases hx : x.1 = k
    · simp only [List.mem_cons, List.find?_cons, hx, decide_true, Option.map_some, Option.some.injEq]
      constructor
      · rintro (h | h)
        · rw [← h]
        · exact absurd hx.symm (hl.1 (k, a) h)
      · rintro rfl; left; rw [← hx]
    · simp only [List.mem_cons, List.find?_cons, hx, decide_false]
      rw [← ih']
      constructor
      · rintro (h | h)
        · rw [← h] at hx; simp at hx
        · exact h
      · exact Or.inr

theorem load_isSome_iff (m : AMap K A) (k : K) : (m.load k).isSome ↔ k ∈ m.entries.map Prod.fst := by
  rw [List.mem_map]
  constructor
  · intro h
    obtain ⟨a, ha⟩ := Option.isSome_iff_exists.1 h
    exact ⟨(k, a), (mem_entries_iff m k a).2 ha, rfl⟩
  · rintro ⟨⟨k', a⟩, h, rfl⟩
    rw [(mem_entries_iff m k' a).1 h]; rfl

theorem length_filter_key (l : List (K × A)) (hl : (l.map Prod.fst).Nodup) (k : K) :
    (l.filter fun p => p.1 ≠ k).length + (if k ∈ l.map Prod.fst then 1 else 0) = l.length := by
  induction l with
  | nil => simp
  | cons x xs ih =>
    simp only [List.map_cons, List.nodup_cons] at hl
    have ih' := ih hl.2
    by_cases hx : x.1 = k
    · have : k ∉ xs.map Prod.fst := by rw [← hx]; exact hl.1
      rw [if_neg this] at ih'
      simp only [List.filter_cons, hx, ne_eq, not_true_eq_false, decide_false, List.map_cons, List.mem_cons,
        true_or, if_true, List.length_cons]
      simpa using ih'
    · have hm : (k ∈ (x :: xs).map Prod.fst) ↔ k ∈ xs.map Prod.fst := by
        simp [Ne.symm hx]
      simp only [hm]
      rw [List.filter_cons_of_pos (by simpa using hx), List.length_cons, List.length_cons]
      omega

theorem size_delete (m : AMap K A) (k : K) :
    (m.delete k).size + (if (m.load k).isSome then 1 else 0) = m.size := by
  have := length_filter_key m.entries m.nodup k
  simp only [load_isSome_iff]
  exact this

theorem size_store (m : AMap K A) (k : K) (a : A) :
    (m.store k a).size = m.size + (if (m.load k).isSome then 0 else 1) := by
  have := length_filter_key m.entries m.nodup k
  simp only [load_isSome_iff]
  simp only [size, store, List.length_cons]
  split <;> simp_all <;> omega

/-- Two maps with the same lookups have the same size. -/
theorem size_eq_of_load (m n : AMap K A) (h : ∀ k, (m.load k).isSome = (n.load k).isSome) : m.size = n.size := by
  have hp : (m.entries.map Prod.fst).Perm (n.entries.map Prod.fst) := by
    rw [List.perm_ext_iff_of_nodup m.nodup n.nodup]
    intro k
    rw [← load_isSome_iff, ← load_isSome_iff, h k]
  have := hp.length_eq
  simpa [size] using this

theorem store_load_self_isSome (m : AMap K A) (k k' : K) (a : A) :
    ((m.store k a).load k').isSome = (decide (k' = k) || (m.load k').isSome) := by
  rw [load_store]; split <;> simp_all

end Gofer.AMap
